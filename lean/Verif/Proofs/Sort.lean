import Verif.Model.Sort
import Verif.Proofs.Basic
import Verif.Spec.Real
import Mathlib.Data.List.FinRange
import Mathlib.Data.List.Perm.Basic

/-! # Sorting -/

set_option linter.unusedSectionVars false

namespace LinfaLinalg

section generic
variable {β : Type} {le : β → β → Bool}

theorem stableInsert_perm (x : β) (l : List β) : (stableInsert le x l).Perm (x :: l) := by
  induction l with
  | nil => exact List.Perm.refl _
  | cons y ys ih =>
    unfold stableInsert
    split_ifs
    · exact List.Perm.refl _
    · exact (List.Perm.cons y ih).trans (List.Perm.swap x y ys)

theorem stableSort_perm (l : List β) : (stableSort le l).Perm l := by
  induction l with
  | nil => exact List.Perm.refl _
  | cons x xs ih => exact (stableInsert_perm x _).trans (List.Perm.cons x ih)

/-- In front of, with ties broken by `r`. -/
def Lex (le : β → β → Bool) (r : β → β → Prop) (p q : β) : Prop :=
  le p q = true ∧ (le q p = true → r p q)

theorem stableInsert_pairwise {r : β → β → Prop} (x : β) (l : List β)
    (htr : ∀ a ∈ x :: l, ∀ b ∈ x :: l, ∀ c ∈ x :: l, le a b = true → le b c = true → le a c = true)
    (hto : ∀ a ∈ x :: l, ∀ b ∈ x :: l, le a b = true ∨ le b a = true)
    (hr : ∀ y ∈ l, r x y) (hl : l.Pairwise (Lex le r)) :
    (stableInsert le x l).Pairwise (Lex le r) := by
  induction l with
  | nil => exact List.pairwise_singleton _ _
  | cons y ys ih =>
    unfold stableInsert
    have hy := List.pairwise_cons.1 hl
    split_ifs with h
    · refine List.pairwise_cons.2 ⟨fun z hz => ⟨?_, fun _ => hr z hz⟩, hl⟩
      rcases List.mem_cons.1 hz with rfl | hz'
      · exact h
      · exact htr x (by simp) y (by simp) z (by simp [hz']) h (hy.1 z hz').1
    · refine List.pairwise_cons.2 ⟨fun z hz => ?_, ?_⟩
      · rcases List.mem_cons.1 ((stableInsert_perm x ys).mem_iff.1 hz) with rfl | hz'
        · refine ⟨?_, fun h' => absurd h' h⟩
          rcases hto z (by simp) y (by simp) with h' | h'
          · exact absurd h' h
          · exact h'
        · exact hy.1 z hz'
      · have sub : ∀ a ∈ x :: ys, a ∈ x :: y :: ys := by
          intro a ha; rcases List.mem_cons.1 ha with rfl | ha <;> simp [*]
        exact ih (fun a ha b hb c hc => htr a (sub a ha) b (sub b hb) c (sub c hc))
          (fun a ha b hb => hto a (sub a ha) b (sub b hb)) (fun z hz => hr z (by simp [hz])) hy.2

theorem stableSort_pairwise {r : β → β → Prop} (l : List β)
    (htr : ∀ a ∈ l, ∀ b ∈ l, ∀ c ∈ l, le a b = true → le b c = true → le a c = true)
    (hto : ∀ a ∈ l, ∀ b ∈ l, le a b = true ∨ le b a = true)
    (hr : l.Pairwise r) : (stableSort le l).Pairwise (Lex le r) := by
  induction l with
  | nil => exact List.Pairwise.nil
  | cons x xs ih =>
    have hr' := List.pairwise_cons.1 hr
    have hm : ∀ a ∈ x :: stableSort le xs, a ∈ x :: xs := by
      intro a ha
      rcases List.mem_cons.1 ha with rfl | ha
      · simp
      · simp [(stableSort_perm xs).mem_iff.1 ha]
    exact stableInsert_pairwise x _ (fun a ha b hb c hc => htr a (hm a ha) b (hm b hb) c (hm c hc))
      (fun a ha b hb => hto a (hm a ha) b (hm b hb))
      (fun y hy => hr'.1 y ((stableSort_perm xs).mem_iff.1 hy))
      (ih (fun a ha b hb c hc => htr a (by simp [ha]) b (by simp [hb]) c (by simp [hc]))
        (fun a ha b hb => hto a (by simp [ha]) b (by simp [hb])) hr'.2)

theorem stableSort_map {γ : Type} (g : γ → β) (l : List γ) :
    (stableSort (fun a b => le (g a) (g b)) l).map g = stableSort le (l.map g) := by
  have hi : ∀ (x : γ) (l : List γ), (stableInsert (fun a b => le (g a) (g b)) x l).map g =
      stableInsert le (g x) (l.map g) := by
    intro x l
    induction l with
    | nil => rfl
    | cons y ys ih =>
      simp only [stableInsert, List.map_cons]
      split_ifs
      · rfl
      · rw [List.map_cons, ih]
  induction l with
  | nil => rfl
  | cons x xs ih => simp only [stableSort, hi, ih, List.map_cons]

end generic

variable {α : Type} [Zero α] [One α] [Add α] [Sub α] [Mul α] [Div α] [Neg α] [NdFloat α]

/-- `<=` is a total preorder on the values that compare with themselves (everything but `NaN`). -/
class LawfulLe (α : Type) [NdFloat α] : Prop where
  trans : ∀ a b c : α, NdFloat.le a b = true → NdFloat.le b c = true → NdFloat.le a c = true
  total : ∀ a b : α, NdFloat.le a a = true → NdFloat.le b b = true →
    NdFloat.le a b = true ∨ NdFloat.le b a = true

instance : LawfulLe ℝ where
  trans a b c h1 h2 := by simp only [real_le, decide_eq_true_eq] at *; exact le_trans h1 h2
  total a b _ _ := by simp only [real_le, decide_eq_true_eq] at *; exact le_total a b

/-- No entry of the array is `NaN`. -/
def NaNFree (v : Arr1 α) : Prop := ∀ i < v.len, NdFloat.le (v.get i) (v.get i) = true

theorem NaNFree.real (v : Arr1 ℝ) : NaNFree v := fun i _ => by simp

/-- `x` may come before `y` in an array sorted in the given order. -/
def InOrder (order : Order) (x y : α) : Prop :=
  match order with
  | .smallest => NdFloat.le x y = true
  | .largest => NdFloat.le y x = true

/-- `σ` is the permutation of a stable sort of the first `n` values of `v`: position `i` of the
result holds entry `σ i`. -/
structure StableSortPerm (order : Order) (n : Nat) (v : Nat → α) (σ : Equiv.Perm (Fin n)) : Prop where
  sorted : ∀ i j : Fin n, i < j → InOrder order (v (σ i)) (v (σ j))
  stable : ∀ i j : Fin n, i < j → InOrder order (v (σ j)) (v (σ i)) → σ i < σ j

theorem leOrd_iff (order : Order) (x y : α) : leOrd order x y = true ↔ InOrder order x y := by
  cases order <;> exact Iff.rfl

/-- What `sort_by` does to the enumerated values. -/
theorem sortBy_enumerate [LawfulLe α] (vals : Arr1 α) (h : NaNFree vals) (order : Order) :
    ∃ (l : List (Nat × α)) (σ : Equiv.Perm (Fin vals.len)),
      sortBy Prod.snd order vals.enumerate = .ok l ∧ StableSortPerm order vals.len vals.get σ ∧
      l.length = vals.len ∧ ∀ i : Fin vals.len, l[(i : Nat)]? = some ((σ i : Nat), vals.get (σ i)) := by
  set le : Nat × α → Nat × α → Bool := fun a b => leOrd order a.2 b.2 with hle
  set l := stableSort le vals.enumerate with hl
  have hp : l.Perm vals.enumerate := stableSort_perm _
  have hmem : ∀ p ∈ vals.enumerate, p.1 < vals.len ∧ p.2 = vals.get p.1 := by
    intro p hp
    simp only [Arr1.enumerate, List.mem_map, List.mem_range] at hp
    obtain ⟨i, hi, rfl⟩ := hp
    exact ⟨hi, rfl⟩
  have hself : ∀ p ∈ vals.enumerate, NdFloat.le p.2 p.2 = true := by
    intro p hp; rw [(hmem p hp).2]; exact h _ (hmem p hp).1
  have hlen : l.length = vals.len := by rw [hp.length_eq]; simp [Arr1.enumerate]
  have hpw : l.Pairwise (Lex le fun p q => p.1 < q.1) := by
    apply stableSort_pairwise
    · intro a _ b _ c _ h1 h2
      cases order
      · exact LawfulLe.trans _ _ _ h2 h1
      · exact LawfulLe.trans _ _ _ h1 h2
    · intro a ha b hb
      cases order
      · exact LawfulLe.total _ _ (hself b hb) (hself a ha)
      · exact LawfulLe.total _ _ (hself a ha) (hself b hb)
    · unfold Arr1.enumerate
      rw [List.pairwise_map]
      exact List.pairwise_lt_range
  have hnd : (l.map Prod.fst).Nodup := by
    refine (hp.map Prod.fst).nodup_iff.2 ?_
    simp only [Arr1.enumerate, List.map_map]
    have : (Prod.fst ∘ fun i => (i, vals.get i)) = (id : Nat → Nat) := rfl
    rw [this, List.map_id]
    exact List.nodup_range
  have hlt : ∀ i : Fin vals.len, (i : Nat) < l.length := fun i => by rw [hlen]; exact i.2
  let f : Fin vals.len → Fin vals.len := fun i =>
    ⟨(l[(i : Nat)]'(hlt i)).1, (hmem _ (hp.mem_iff.1 (List.getElem_mem _))).1⟩
  have hf : Function.Injective f := by
    intro i j hij
    have h1 : (l[(i : Nat)]'(hlt i)).1 = (l[(j : Nat)]'(hlt j)).1 := congrArg Fin.val hij
    have h2 := (List.Nodup.getElem_inj_iff hnd (i := i) (j := j)
      (hi := by simpa using hlt i) (hj := by simpa using hlt j)).1 (by simpa using h1)
    exact Fin.ext h2
  let σ : Equiv.Perm (Fin vals.len) := Equiv.ofBijective f (Finite.injective_iff_bijective.1 hf)
  have hσ : ∀ i, σ i = f i := fun i => rfl
  have hget : ∀ i : Fin vals.len, l[(i : Nat)]'(hlt i) = ((σ i : Nat), vals.get (σ i)) := by
    intro i
    refine Prod.ext rfl ?_
    exact (hmem _ (hp.mem_iff.1 (List.getElem_mem (hlt i)))).2
  have hpair : ∀ i j : Fin vals.len, i < j → Lex le (fun p q => p.1 < q.1)
      ((σ i : Nat), vals.get (σ i)) ((σ j : Nat), vals.get (σ j)) := by
    intro i j hij
    have := List.pairwise_iff_getElem.1 hpw i j (hlt i) (hlt j) hij
    rwa [hget i, hget j] at this
  refine ⟨l, σ, ?_, ⟨?_, ?_⟩, hlen, ?_⟩
  · unfold sortBy
    rw [if_neg]
    rintro ⟨_, hany⟩
    obtain ⟨p, hp, hn⟩ := List.any_eq_true.1 hany
    simp only [isNaN, hself p hp, Bool.not_true, Bool.false_eq_true] at hn
  · intro i j hij
    exact (leOrd_iff order _ _).1 (hpair i j hij).1
  · intro i j hij ht
    exact (hpair i j hij).2 ((leOrd_iff order _ _).2 ht)
  · intro i
    rw [List.getElem?_eq_getElem (hlt i), hget i]

/-- Any NaN makes the sort of two or more values panic. -/
theorem sortBy_nan (vals : Arr1 α) (h : ¬ NaNFree vals) (h2 : 2 ≤ vals.len) (order : Order) :
    sortBy Prod.snd order vals.enumerate = .error .panic := by
  unfold sortBy
  rw [if_pos]
  refine ⟨by simpa [Arr1.enumerate] using h2, List.any_eq_true.2 ?_⟩
  unfold NaNFree at h
  push Not at h
  obtain ⟨i, hi, hn⟩ := h
  refine ⟨(i, vals.get i), ?_, ?_⟩
  · simp [Arr1.enumerate, hi]
  · simpa [isNaN] using hn

theorem permuteCols_ok (vecs : Arr2 α) (n : Nat) (hn : vecs.nc = n) (l : List (Nat × α))
    (hl : l.length = n) (σ : Equiv.Perm (Fin n)) (v : Nat → α)
    (h : ∀ i : Fin n, l[(i : Nat)]? = some ((σ i : Nat), v (σ i))) :
    Succeeds (permuteCols vecs l) fun out => HasShape out vecs.nr n ∧
      ∀ i < vecs.nr, ∀ j : Fin n, out.get i j = vecs.get i (σ j) := by
  unfold permuteCols
  have := wp_forRange (lo := 0) (hi := l.length) (s := (Arr2.zeros vecs.nr vecs.nc : Arr2 α))
    (f := fun k out =>
      match l[k]? with
      | none => .ok out
      | some (idx, _) => do
        let c ← vecs.colSlice 0 vecs.nr idx
        if k < out.nc then .ok (out.putCol 0 k c) else .error .panic)
    (E := fun _ => False)
    (fun k out => HasShape out vecs.nr n ∧
      ∀ i < vecs.nr, ∀ j : Fin n, (j : Nat) < k → out.get i j = vecs.get i (σ j))
  refine wp_conseq (this (by omega) ?_ ?_) ?_
  · exact ⟨⟨rfl, hn⟩, fun i _ j hj => by omega⟩
  · intro k out _ hk ⟨hs, hg⟩
    have hk' : k < n := by omega
    have e := h ⟨k, hk'⟩
    simp only at e
    rw [e]
    simp only
    rw [Arr2.colSlice_ok (by omega) le_rfl (by rw [hn]; exact (σ ⟨k, hk'⟩).2)]
    rw [ok_bind, if_pos (by rw [hs.2]; exact hk'), wp_ok]
    refine ⟨⟨hs.1, hs.2⟩, fun i hi j hj => ?_⟩
    simp only [Arr2.putCol]
    by_cases hjk : (j : Nat) = k
    · have : j = ⟨k, hk'⟩ := Fin.ext hjk
      rw [if_pos ⟨hjk, by omega, by simpa using hi⟩, this]
      simp
    · rw [if_neg (by tauto)]
      exact hg i hi j (by omega)
  · intro out ⟨hs, hg⟩
    exact ⟨hs, fun i hi j => hg i hi j (by rw [hl]; exact j.2)⟩

/-- Sorting the values alone gives the values of the sorted pairs. -/
theorem sortBy_toList (vals : Arr1 α) (order : Order) :
    RelM (fun l l' => l = l'.map Prod.snd) (sortBy (fun x : α => x) order vals.toList)
      (sortBy Prod.snd order vals.enumerate) := by
  have hm : vals.toList = vals.enumerate.map Prod.snd := by
    simp [Arr1.toList, Arr1.enumerate, Function.comp_def]
  unfold sortBy
  have hc : (2 ≤ vals.toList.length ∧ (vals.toList.any fun x => isNaN x) = true) ↔
      (2 ≤ vals.enumerate.length ∧ (vals.enumerate.any fun x => isNaN x.2) = true) := by
    rw [hm]; simp [List.any_map, Function.comp_def]
  by_cases h : 2 ≤ vals.enumerate.length ∧ (vals.enumerate.any fun x => isNaN x.2) = true
  · rw [if_pos h, if_pos (hc.2 h)]
    rfl
  · rw [if_neg h, if_neg (fun h' => h (hc.1 h'))]
    show _ = _
    rw [hm, ← stableSort_map]

end LinfaLinalg
