import Lean
import Mathlib.Data.List.Forall2

/-! # A tactic for relational proofs

`rel` proves that two runs of the same program on related inputs are related. It looks at the outermost function of
the left run and applies the lemma about it that carries the attribute `rel_rule`. The proofs it finds are checked
by the kernel like any other. -/

namespace LinfaLinalg.RelTac

open Lean Meta Elab Tactic

/-- The relation and the function which a goal is about. -/
def keyOf (e : Expr) : Option (Name × Name) := do
  guard (e.getAppNumArgs ≥ 2)
  let lhs := e.appFn!.appArg!.consumeMData
  let rel := e.getAppFn
  let head := match lhs.getAppFn with
    | .const n _ => n
    | .lam .. => `lam
    | .lit _ => `lit
    | .fvar _ => `fvar
    | _ => `other
  match rel with
  | .const n _ => some (n, head)
  | _ => some (`any, head)

/-- The lemmas marked `rel_rule`. -/
initialize ruleExt : SimplePersistentEnvExtension ((Name × Name) × Name) (List ((Name × Name) × Name)) ←
  registerSimplePersistentEnvExtension {
    addEntryFn := fun l e => e :: l
    addImportedFn := fun es => es.foldl (fun l a => a.toList ++ l) []
  }

initialize registerBuiltinAttribute {
  name := `rel_rule
  descr := "lemma for the tactic `rel`"
  add := fun decl _ _ => do
    let env ← getEnv
    let some info := env.find? decl | throwError "unknown"
    let rec body : Expr → Expr
      | .forallE _ _ b _ => body b
      | .mdata _ e => body e
      | e => e
    match keyOf (body info.type) with
    | some k => modifyEnv fun env => ruleExt.addEntry env (k, decl)
    | none => throwError "no key"
}

/-- The relation between scalars in the context. -/
def scalarRel : MetaM Expr := do
  for i in ← getLocalInstances do
    if i.className == `LinfaLinalg.Par.ScalarRel then
      return (← instantiateMVars (← inferType i.fvar)).appArg!
  throwError "rel: no relation between scalars"

/-- The relation between values of two types which a relation between scalars gives. -/
partial def canonRel (A B : Expr) : MetaM Expr := do
  let A ← whnfR (← instantiateMVars A)
  let B ← whnfR (← instantiateMVars B)
  match A.getAppFn with
  | .const n _ =>
    match n with
    | ``Prod => mkAppM `LinfaLinalg.Par.RelP #[← canonRel A.appFn!.appArg! B.appFn!.appArg!, ← canonRel A.appArg! B.appArg!]
    | ``Option => mkAppM `LinfaLinalg.Par.RelO #[← canonRel A.appArg! B.appArg!]
    | ``List => mkAppM ``List.Forall₂ #[← canonRel A.appArg! B.appArg!]
    | `LinfaLinalg.Step => mkAppM `LinfaLinalg.Par.RelStep #[← canonRel A.appArg! B.appArg!]
    | `LinfaLinalg.Arr1 => mkAppM `LinfaLinalg.Par.RelA1 #[← scalarRel]
    | `LinfaLinalg.Arr2 => mkAppM `LinfaLinalg.Par.RelA2 #[← scalarRel]
    | ``Except =>
      if A.appFn!.appArg!.isConstOf `LinfaLinalg.LinalgError then
        mkAppM `LinfaLinalg.Par.RelE #[← canonRel A.appArg! B.appArg!]
      else
        mkAppM `LinfaLinalg.Par.RelX #[← canonRel A.appFn!.appArg! B.appFn!.appArg!, ← canonRel A.appArg! B.appArg!]
    | _ =>
      let r := Name.str `LinfaLinalg.Par ("Rel" ++ n.getString!)
      if A.getAppNumArgs ≥ 1 && (← getEnv).contains r then mkAppM r #[← scalarRel]
      else mkAppOptM ``Eq #[some A]
  | .fvar _ => scalarRel
  | _ => throwError "rel: no relation for {A}"

/-- Apply a lemma. Relations which the goal leaves open are chosen by the types. -/
def instantiateRule (c : Expr) (unify : Expr → MetaM Unit) : MetaM (Expr × List MVarId) := do
  let (ms, bis, ty) ← forallMetaTelescope (← inferType c)
  unify ty
  for (m, bi) in ms.zip bis do
    if bi.isInstImplicit then
      unless ← m.mvarId!.isAssigned do
        let t ← instantiateMVars (← inferType m)
        if t.isAppOf `LinfaLinalg.Par.ScalarRel && t.appArg!.getAppFn.isMVar then
          discard <| isDefEq t.appArg! (← scalarRel)
  for m in ms do
    unless ← m.mvarId!.isAssigned do
      match ← whnfR (← instantiateMVars (← inferType m)) with
      | .forallE _ A (.forallE _ B (.sort .zero) _) _ =>
        unless B.hasLooseBVars do
          m.mvarId!.assign (← canonRel A B)
      | _ => pure ()
  -- relations of the goal itself
  for e in (← getMVars (← instantiateMVars ty)) do
    unless ← e.isAssigned do
      match ← whnfR (← instantiateMVars (← e.getType)) with
      | .forallE _ A (.forallE _ B (.sort .zero) _) _ =>
        unless B.hasLooseBVars do
          e.assign (← canonRel A B)
      | _ => pure ()
  for (m, bi) in ms.zip bis do
    if bi.isInstImplicit then
      let v ← synthInstance (← instantiateMVars (← inferType m))
      unless ← isDefEq m v do throwError "rel: instance"
  let mut gs := []
  for x in ms.reverse do
    let x ← instantiateMVars x
    if x.isMVar then
      unless ← x.mvarId!.isAssigned do gs := x.mvarId! :: gs
  return (← instantiateMVars (mkAppN c ms), gs)

/-- Apply a lemma to a goal. -/
def applyRule (g : MVarId) (c : Expr) : MetaM (List MVarId) := g.withContext do
  let t ← g.getType
  let (p, gs) ← instantiateRule c fun ty => do
    unless ← withReducible (isDefEq ty t) do throwError "rel: no match"
  g.assign p
  return gs

/-- Apply a lemma about the argument `d` of a `match`, and replace it by an arbitrary related value. -/
def generalizeDiscr (g : MVarId) (t lhs rhs : Expr) : MetaM (List MVarId) := g.withContext do
  let env ← getEnv
  let some ml ← matchMatcherApp? lhs | throwError "rel: no match"
  let some mr ← matchMatcherApp? rhs | throwError "rel: no match"
  let saved ← saveState
  for (d, d') in ml.discrs.zip mr.discrs do
    if d.isFVar && d'.isFVar then continue
    let .const f _ := d.consumeMData.getAppFn | continue
    for (k, l) in ruleExt.getState env do
      if k.2 != f then continue
      try
        let c ← mkConstWithFreshMVarLevels l
        let (p, gs) ← instantiateRule c fun ty => do
          unless ty.getAppNumArgs ≥ 2 do throwError "rel"
          unless ← isDefEq ty.appFn!.appArg! d do throwError "rel"
          unless ← isDefEq ty.appArg! d' do throwError "rel"
        let rel := (← instantiateMVars (← inferType p)).appFn!.appFn!
        let dt ← inferType d
        let dt' ← inferType d'
        let new ← withLocalDeclD `o dt fun o => withLocalDeclD `o' dt' fun o' => do
          let tgt := (← kabstract t d).instantiate1 o
          let tgt := (← kabstract tgt d').instantiate1 o'
          let h := mkApp2 rel o o'
          mkForallFVars #[o, o'] (← mkArrow h tgt)
        let m ← mkFreshExprSyntheticOpaqueMVar new
        g.assign (mkApp3 m d d' p)
        return gs ++ [m.mvarId!]
      catch _ => saved.restore
  throwError "rel: no rule for the match"

/-- One step of `rel`. -/
partial def step : TacticM Unit := withMainContext do
  let g ← getMainGoal
  let t := (← instantiateMVars (← g.getType)).consumeMData.headBeta
  let t ← if t.isApp && t.appArg!.isProj then
      Meta.transform t (post := fun e => do
        match e with
        | .proj n i x =>
          let some f := (getStructureFields (← getEnv) n)[i]? | return .continue
          return .done (← mkProjection x f)
        | _ => return .continue)
    else pure t
  let g ← g.replaceTargetDefEq t
  replaceMainGoal [g]
  match t with
  | .letE .. => let (_, g) ← g.intro1; replaceMainGoal [g]
  | .forallE _ _ b _ =>
    -- `∀ a b, Rel a b → …` with a known relation
    let b := b.consumeMData
    let rel : Option Name := match b with
      | .forallE _ _ c _ => match c.consumeMData with
        | .forallE _ d _ _ =>
          if d.getAppNumArgs ≥ 2 && d.appArg! == .bvar 0 && d.appFn!.appArg! == .bvar 1 then
            d.getAppFn.constName?
          else none
        | _ => none
      | _ => none
    match rel with
    | some n =>
      let l := Name.str `LinfaLinalg.Par ("forall_" ++ n.getString!)
      let l' := Name.str `LinfaLinalg.Par ("facts_" ++ n.getString!)
      if (← getEnv).contains l then
        let gs ← withReducible <| g.apply (← mkConstWithFreshMVarLevels l)
        replaceMainGoal gs
        evalTactic (← `(tactic| all_goals try dsimp only))
      else if (← getEnv).contains l' then
        let gs ← withReducible <| g.apply (← mkConstWithFreshMVarLevels l')
        let gs ← gs.mapM fun g => return (← g.introN 3).2
        replaceMainGoal gs
      else
        let (_, g) ← g.introN 3
        replaceMainGoal [g]
    | none => let (_, g) ← g.intro1; replaceMainGoal [g]
  | _ =>
    let some (r, f) := keyOf t | throwError "rel: no rule for {t}"
    let saved ← saveState
    let rules := (ruleExt.getState (← getEnv)).filterMap fun (k, l) => if k == (r, f) || k == (`any, f) then some l else none
    if r == ``Eq then
      try
        evalTactic (← `(tactic| first | with_reducible rfl | with_reducible assumption | omega))
        return
      catch _ => restoreState saved
    for l in rules do
      try
        let gs ← applyRule g (← mkConstWithFreshMVarLevels l)
        replaceMainGoal gs
        return
      catch _ => restoreState saved
    if r == ``Iff then
      evalTactic (← `(tactic| first
        | exact Iff.rfl
        | omega
        | (refine iff_of_eq ?_; congr 1; done)))
    else if r == ``Eq then
      evalTactic (← `(tactic| first
        | (congr 1; done)
        | (simp only [*]; done)))
    else
      for h in ← getLCtx do
        if h.isImplementationDetail then continue
        try
          let gs ← withReducible <| g.apply h.toExpr
          replaceMainGoal gs
          return
        catch _ => restoreState saved
      try
        evalTactic (← `(tactic| dsimp only))
        return
      catch _ => restoreState saved
      try
        let gs ← generalizeDiscr g t t.appFn!.appArg! t.appArg!
        replaceMainGoal gs
        return
      catch _ => restoreState saved
      throwError "rel: no rule for {r} {f} in {t}"

elab "rel_step" : tactic => step

/-- Proof that two runs are related, by the lemmas known so far. -/
macro "rel" : tactic => `(tactic| repeat' rel_step)

end LinfaLinalg.RelTac
