import Verif.Spec.Memory
import Verif.Proofs.Basic
import Mathlib.Tactic.Ring
import Mathlib.Data.List.Nodup

/-! # The functions on memory do what the functions on arrays do -/

set_option linter.unusedSectionVars false

namespace LinfaLinalg

section general
variable {α : Type}

theorem Frame.refl (P : Int → Prop) (mem : Mem α) : Frame P mem mem := fun _ _ => rfl

theorem Frame.trans {P : Int → Prop} {m m' m'' : Mem α} (h : Frame P m m') (h' : Frame P m' m'') : Frame P m m'' :=
  fun x hx => (h' x hx).trans (h x hx)

theorem Frame.mono {P Q : Int → Prop} {m m' : Mem α} (h : Frame P m m') (hPQ : ∀ x, P x → Q x) : Frame Q m m' :=
  fun x hx => h x fun hp => hx (hPQ x hp)

theorem Holds.load (v : View2) (mem : Mem α) : Holds v mem (v.load mem) := ⟨rfl, rfl, fun _ _ _ _ => rfl⟩

theorem Holds1.load (v : View1) (mem : Mem α) : Holds1 v mem (v.load mem) := ⟨rfl, fun _ _ => rfl⟩

theorem Holds.frame {v : View2} {m m' : Mem α} {a : Arr2 α} {P : Int → Prop} (h : Holds v m a) (hf : Frame P m m')
    (hd : Apart v.In P) : Holds v m' a :=
  ⟨h.nr, h.nc, fun i j hi hj => by rw [h.get i j hi hj, hf _ (hd _ ⟨i, j, hi, hj, rfl⟩)]⟩

theorem Holds1.frame {v : View1} {m m' : Mem α} {a : Arr1 α} {P : Int → Prop} (h : Holds1 v m a) (hf : Frame P m m')
    (hd : Apart v.In P) : Holds1 v m' a :=
  ⟨h.len, fun i hi => by rw [h.get i hi, hf _ (hd _ ⟨i, hi, rfl⟩)]⟩

theorem Apart.symm {P Q : Int → Prop} (h : Apart P Q) : Apart Q P := fun x hq hp => h x hp hq

theorem Apart.mono {P P' Q Q' : Int → Prop} (h : Apart P Q) (hp : ∀ x, P' x → P x) (hq : ∀ x, Q' x → Q x) :
    Apart P' Q' := fun x h1 h2 => h x (hp x h1) (hq x h2)

/-! ## Transposed views and sub-views -/

theorem View2.t_addr (v : View2) (i j : Nat) : v.t.addr i j = v.addr j i := by
  simp only [View2.addr, View2.t]; ring

theorem View2.t_in (v : View2) (x : Int) : v.t.In x ↔ v.In x := by
  constructor
  · rintro ⟨i, j, hi, hj, e⟩; exact ⟨j, i, hj, hi, by rw [← e, View2.t_addr]⟩
  · rintro ⟨i, j, hi, hj, e⟩; exact ⟨j, i, hj, hi, by rw [← e, View2.t_addr]⟩

theorem View2.Inj.t {v : View2} (h : v.Inj) : v.t.Inj := fun i j i' j' hi hj hi' hj' e => by
  rw [View2.t_addr, View2.t_addr] at e
  exact (h j i j' i' hj hi hj' hi' e).symm

theorem Holds.t {v : View2} {m : Mem α} {a : Arr2 α} (h : Holds v m a) : Holds v.t m a.t :=
  ⟨h.nc, h.nr, fun i j hi hj => by rw [View2.t_addr]; exact h.get j i hj hi⟩

theorem Writes.t {v : View2} {m m' : Mem α} {a : Arr2 α} (h : Writes v.t m m' a) : Writes v m m' a.t :=
  ⟨h.1.t, h.2.mono fun x => (v.t_in x).1⟩

/-- The view `s![r0..r1, c]`. -/
def View2.col (v : View2) (r0 r1 c : Nat) : View1 := ⟨r1 - r0, v.addr r0 c, v.sr⟩

/-- The view `s![r0..r1, c0..c1]`. -/
def View2.sub (v : View2) (r0 r1 c0 c1 : Nat) : View2 := ⟨r1 - r0, c1 - c0, v.addr r0 c0, v.sr, v.sc⟩

theorem View2.col_addr (v : View2) (r0 r1 c i : Nat) : (v.col r0 r1 c).addr i = v.addr (r0 + i) c := by
  simp only [View1.addr, View2.addr, View2.col]; push_cast; ring

theorem View2.sub_addr (v : View2) (r0 r1 c0 c1 i j : Nat) :
    (v.sub r0 r1 c0 c1).addr i j = v.addr (r0 + i) (c0 + j) := by
  simp only [View2.addr, View2.sub]; push_cast; ring

theorem View2.col_in {v : View2} {r0 r1 c : Nat} (h : r1 ≤ v.nr) (hc : c < v.nc) (x : Int)
    (hx : (v.col r0 r1 c).In x) : v.In x := by
  obtain ⟨i, hi, e⟩ := hx
  have hi : i < r1 - r0 := hi
  exact ⟨r0 + i, c, by omega, hc, by rw [← e, View2.col_addr]⟩

theorem View2.sub_in {v : View2} {r0 r1 c0 c1 : Nat} (h : r1 ≤ v.nr) (hc : c1 ≤ v.nc) (x : Int)
    (hx : (v.sub r0 r1 c0 c1).In x) : v.In x := by
  obtain ⟨i, j, hi, hj, e⟩ := hx
  have hi : i < r1 - r0 := hi
  have hj : j < c1 - c0 := hj
  exact ⟨r0 + i, c0 + j, by omega, by omega, by rw [← e, View2.sub_addr]⟩

theorem View2.Inj.col {v : View2} (hv : v.Inj) {r0 r1 c : Nat} (h : r1 ≤ v.nr) (hc : c < v.nc) :
    (v.col r0 r1 c).Inj := fun i i' hi hi' e => by
  have hi : i < r1 - r0 := hi
  have hi' : i' < r1 - r0 := hi'
  rw [View2.col_addr, View2.col_addr] at e
  have := (hv _ _ _ _ (by omega) hc (by omega) hc e).1
  omega

theorem View2.Inj.sub {v : View2} (hv : v.Inj) {r0 r1 c0 c1 : Nat} (h : r1 ≤ v.nr) (hc : c1 ≤ v.nc) :
    (v.sub r0 r1 c0 c1).Inj := fun i j i' j' hi hj hi' hj' e => by
  have hi : i < r1 - r0 := hi
  have hj : j < c1 - c0 := hj
  have hi' : i' < r1 - r0 := hi'
  have hj' : j' < c1 - c0 := hj'
  rw [View2.sub_addr, View2.sub_addr] at e
  have := hv _ _ _ _ (by omega) (by omega) (by omega) (by omega) e
  omega

/-- A column and a block to its right have no entry in common. -/
theorem View2.Inj.apart {v : View2} (hv : v.Inj) {r0 r1 c s0 s1 c0 c1 : Nat} (h : r1 ≤ v.nr) (hc : c < c0)
    (hs : s1 ≤ v.nr) (h1 : c1 ≤ v.nc) (hc' : c < v.nc) : Apart (v.col r0 r1 c).In (v.sub s0 s1 c0 c1).In := by
  rintro x ⟨i, hi, e⟩ ⟨i', j', hi', hj', e'⟩
  have hi : i < r1 - r0 := hi
  have hi' : i' < s1 - s0 := hi'
  have hj' : j' < c1 - c0 := hj'
  rw [← e, View2.sub_addr, View2.col_addr] at e'
  have := hv _ _ _ _ (by omega) (by omega) (by omega) hc' e'
  omega

/-- `slice` and `col_slice` on the two levels. -/
theorem relM_colSlice {v : View2} {m : Mem α} {a : Arr2 α} (h : Holds v m a) (r0 r1 c : Nat) :
    RelM (fun w x => (r0 ≤ r1 ∧ r1 ≤ v.nr ∧ c < v.nc) ∧ w = v.col r0 r1 c ∧ x = ⟨r1 - r0, fun i => a.get (r0 + i) c⟩)
      (v.colSlice r0 r1 c) (a.colSlice r0 r1 c) := by
  unfold View2.colSlice Arr2.colSlice
  rw [h.nr, h.nc]
  split
  · rename_i hc; exact ⟨hc, rfl, rfl⟩
  · rfl

theorem relM_slice {v : View2} {m : Mem α} {a : Arr2 α} (h : Holds v m a) (r0 r1 c0 c1 : Nat) :
    RelM (fun w x => (r0 ≤ r1 ∧ r1 ≤ v.nr ∧ c0 ≤ c1 ∧ c1 ≤ v.nc) ∧ w = v.sub r0 r1 c0 c1 ∧
      x = ⟨r1 - r0, c1 - c0, fun i j => a.get (r0 + i) (c0 + j)⟩) (v.slice r0 r1 c0 c1) (a.slice r0 r1 c0 c1) := by
  unfold View2.slice Arr2.slice
  rw [h.nr, h.nc]
  split
  · rename_i hc; exact ⟨hc, rfl, rfl⟩
  · rfl

theorem Holds.col {v : View2} {m : Mem α} {a : Arr2 α} (h : Holds v m a) {r0 r1 c : Nat} (h1 : r1 ≤ v.nr)
    (hc : c < v.nc) : Holds1 (v.col r0 r1 c) m ⟨r1 - r0, fun i => a.get (r0 + i) c⟩ :=
  ⟨rfl, fun i hi => by
    have hi : i < r1 - r0 := hi
    rw [View2.col_addr]; exact h.get _ _ (by omega) hc⟩

theorem Holds.sub {v : View2} {m : Mem α} {a : Arr2 α} (h : Holds v m a) {r0 r1 c0 c1 : Nat} (h1 : r1 ≤ v.nr)
    (hc : c1 ≤ v.nc) : Holds (v.sub r0 r1 c0 c1) m ⟨r1 - r0, c1 - c0, fun i j => a.get (r0 + i) (c0 + j)⟩ :=
  ⟨rfl, rfl, fun i j hi hj => by
    have hi : i < r1 - r0 := hi
    have hj : j < c1 - c0 := hj
    rw [View2.sub_addr]; exact h.get _ _ (by omega) (by omega)⟩

theorem Holds.putCol {v : View2} {m m' : Mem α} {a : Arr2 α} {x : Arr1 α} (hv : v.Inj) (h : Holds v m a) {r0 r1 c : Nat}
    (h0 : r0 ≤ r1) (h1 : r1 ≤ v.nr) (hc : c < v.nc) (hx : Holds1 (v.col r0 r1 c) m' x)
    (hf : Frame (v.col r0 r1 c).In m m') : Writes v m m' (a.putCol r0 c x) := by
  have hl : x.len = r1 - r0 := hx.len
  refine ⟨⟨h.nr, h.nc, fun i j hi hj => ?_⟩, hf.mono fun y => View2.col_in h1 hc y⟩
  simp only [Arr2.putCol]
  split
  · rename_i hin
    rw [hx.get _ (by show i - r0 < r1 - r0; omega), View2.col_addr, hin.1]
    congr 2
    omega
  · rename_i hout
    rw [h.get i j hi hj, hf]
    rintro ⟨k, hk, e⟩
    have hk : k < r1 - r0 := hk
    rw [View2.col_addr] at e
    have := hv _ _ _ _ (by omega) hc hi hj e
    exact hout ⟨this.2.symm, by omega, by omega⟩

theorem Holds.put {v : View2} {m m' : Mem α} {a x : Arr2 α} (hv : v.Inj) (h : Holds v m a) {r0 r1 c0 c1 : Nat}
    (h0 : r0 ≤ r1) (h1 : r1 ≤ v.nr) (h2 : c0 ≤ c1) (hc : c1 ≤ v.nc) (hx : Writes (v.sub r0 r1 c0 c1) m m' x) :
    Writes v m m' (a.put r0 c0 x) := by
  have hl : x.nr = r1 - r0 := hx.1.nr
  have hl' : x.nc = c1 - c0 := hx.1.nc
  refine ⟨⟨h.nr, h.nc, fun i j hi hj => ?_⟩, hx.2.mono fun y => View2.sub_in h1 hc y⟩
  simp only [Arr2.put]
  split
  · rename_i hin
    rw [hx.1.get _ _ (by show i - r0 < r1 - r0; omega) (by show j - c0 < c1 - c0; omega), View2.sub_addr]
    congr 2 <;> omega
  · rename_i hout
    rw [h.get i j hi hj, hx.2]
    rintro ⟨k, l, hk, hl, e⟩
    have hk : k < r1 - r0 := hk
    have hl : l < c1 - c0 := hl
    rw [View2.sub_addr] at e
    have := hv _ _ _ _ (by omega) (by omega) hi hj e
    exact hout (by omega)

theorem Writes.trans {v : View2} {m m' m'' : Mem α} {a : Arr2 α} (h : Frame v.In m m') (h' : Writes v m' m'' a) :
    Writes v m m'' a := ⟨h'.1, h.trans h'.2⟩

/-! ## Single entries -/

theorem relM_at {v : View2} {m : Mem α} {a : Arr2 α} (h : Holds v m a) (i j : Nat) :
    RelM (fun x y => x = y) (v.at m i j) (a.at i j) := by
  unfold View2.at Arr2.at
  rw [h.nr, h.nc]
  split
  · rename_i hij; exact (h.get i j hij.1 hij.2).symm
  · rfl

theorem Holds.upd {v : View2} {m : Mem α} {a : Arr2 α} (hv : v.Inj) (h : Holds v m a) {i j : Nat} (hi : i < v.nr)
    (hj : j < v.nc) (x : α) : Writes v m (m.set (v.addr i j) x) (a.upd i j x) := by
  refine ⟨⟨h.nr, h.nc, fun k l hk hl => ?_⟩, fun y hy => ?_⟩
  · simp only [Arr2.upd, Mem.set]
    by_cases e : k = i ∧ l = j
    · rw [if_pos e, if_pos (by rw [e.1, e.2])]
    · rw [if_neg e, if_neg (fun e' => e (hv _ _ _ _ hk hl hi hj e')), h.get k l hk hl]
  · exact if_neg fun e => hy ⟨i, j, hi, hj, e.symm⟩

theorem relM_atm {v : View2} {m : Mem α} {a : Arr2 α} (hv : v.Inj) (h : Holds v m a) (i j : Nat) (x : α) :
    RelM (Writes v m) (v.atm m i j x) (a.atm i j x) := by
  unfold View2.atm Arr2.atm
  rw [h.nr, h.nc]
  split
  · rename_i hij; exact h.upd hv hij.1 hij.2 x
  · rfl

theorem relM_checkSquare {v : View2} {m : Mem α} {a : Arr2 α} (h : Holds v m a) :
    RelM (fun x y => x = y) v.checkSquare (checkSquare a) := by
  unfold View2.checkSquare checkSquare
  rw [h.nr, h.nc]
  split <;> rfl

/-! ## Elementwise updates -/

theorem updateAll_spec {ι : Type} (mem : Mem α) (l : List ι) (addr : ι → Int) (g : ι → Mem α → α) (hn : l.Nodup)
    (hinj : ∀ i ∈ l, ∀ j ∈ l, addr i = addr j → i = j)
    (hg : ∀ i ∈ l, ∀ m : Mem α, m (addr i) = mem (addr i) → (∀ x, (∀ j ∈ l, addr j ≠ x) → m x = mem x) →
      g i m = g i mem) :
    (∀ i ∈ l, mem.updateAll l addr g (addr i) = g i mem) ∧
      ∀ x, (∀ i ∈ l, addr i ≠ x) → mem.updateAll l addr g x = mem x := by
  suffices H : ∀ l' : List ι, l'.Nodup → (∀ i ∈ l', i ∈ l) → ∀ m : Mem α, (∀ i ∈ l', m (addr i) = mem (addr i)) →
      (∀ x, (∀ j ∈ l, addr j ≠ x) → m x = mem x) →
      (∀ i ∈ l', m.updateAll l' addr g (addr i) = g i mem) ∧
        ∀ x, (∀ i ∈ l', addr i ≠ x) → m.updateAll l' addr g x = m x from
    H l hn (fun _ h => h) mem (fun _ _ => rfl) fun _ _ => rfl
  intro l'
  induction l' with
  | nil => intro _ _ m _ _; exact ⟨fun i hi => absurd hi (by simp), fun x _ => rfl⟩
  | cons i is ih =>
    intro hnd hsub m hm ho
    rw [List.nodup_cons] at hnd
    have hi : i ∈ l := hsub i (by simp)
    have hne : ∀ j ∈ is, addr j ≠ addr i := fun j hj e =>
      hnd.1 (hinj j (hsub j (by simp [hj])) i hi e ▸ hj)
    obtain ⟨h1, h2⟩ := ih hnd.2 (fun j hj => hsub j (by simp [hj])) (m.set (addr i) (g i m))
      (fun j hj => by rw [Mem.set, if_neg (hne j hj)]; exact hm j (by simp [hj]))
      (fun x hx => by rw [Mem.set, if_neg (hx i hi).symm]; exact ho x hx)
    have hstep : m.updateAll (i :: is) addr g = (m.set (addr i) (g i m)).updateAll is addr g := rfl
    rw [hstep]
    refine ⟨fun j hj => ?_, fun x hx => ?_⟩
    · rcases List.mem_cons.1 hj with rfl | hj
      · rw [h2 _ (fun k hk => hne k hk), Mem.set, if_pos rfl]
        exact hg _ hi m (hm _ (by simp)) ho
      · exact h1 j hj
    · rw [h2 x fun k hk => hx k (by simp [hk]), Mem.set, if_neg (hx i (by simp)).symm]

theorem Traversal.mem_one (tr : Traversal) (v : View1) (i : Nat) : i ∈ tr.one v ↔ i < v.len := by
  rw [(tr.perm1 v).mem_iff, List.mem_range]

theorem Traversal.mem_two (tr : Traversal) (v : View2) (p : Nat × Nat) : p ∈ tr.two v ↔ p.1 < v.nr ∧ p.2 < v.nc := by
  obtain ⟨i, j⟩ := p
  rw [(tr.perm2 v).mem_iff, List.pair_mem_product, List.mem_range, List.mem_range]

theorem Traversal.nodup_one (tr : Traversal) (v : View1) : (tr.one v).Nodup :=
  (tr.perm1 v).nodup_iff.2 List.nodup_range

theorem Traversal.nodup_two (tr : Traversal) (v : View2) : (tr.two v).Nodup :=
  (tr.perm2 v).nodup_iff.2 (List.Nodup.product List.nodup_range List.nodup_range)

/-- An elementwise update of a 1D view. -/
theorem update_one (tr : Traversal) {v : View1} (hv : v.Inj) (mem : Mem α) (g : Nat → Mem α → α)
    (hg : ∀ i, i < v.len → ∀ m : Mem α, m (v.addr i) = mem (v.addr i) → Frame v.In mem m → g i m = g i mem) :
    (∀ i, i < v.len → mem.updateAll (tr.one v) v.addr g (v.addr i) = g i mem) ∧
      Frame v.In mem (mem.updateAll (tr.one v) v.addr g) := by
  obtain ⟨h1, h2⟩ := updateAll_spec mem (tr.one v) v.addr g (tr.nodup_one v)
    (fun i hi j hj => hv i j ((tr.mem_one v i).1 hi) ((tr.mem_one v j).1 hj))
    (fun i hi m hm ho => hg i ((tr.mem_one v i).1 hi) m hm fun x hx => ho x fun j hj e =>
      hx ⟨j, (tr.mem_one v j).1 hj, e⟩)
  exact ⟨fun i hi => h1 i ((tr.mem_one v i).2 hi), fun x hx => h2 x fun i hi e => hx ⟨i, (tr.mem_one v i).1 hi, e⟩⟩

/-- An elementwise update of a 2D view. -/
theorem update_two (tr : Traversal) {v : View2} (hv : v.Inj) (mem : Mem α) (g : Nat × Nat → Mem α → α)
    (hg : ∀ i j, i < v.nr → j < v.nc → ∀ m : Mem α, m (v.addr i j) = mem (v.addr i j) → Frame v.In mem m →
      g (i, j) m = g (i, j) mem) :
    (∀ i j, i < v.nr → j < v.nc → mem.updateAll (tr.two v) (fun p => v.addr p.1 p.2) g (v.addr i j) = g (i, j) mem) ∧
      Frame v.In mem (mem.updateAll (tr.two v) (fun p => v.addr p.1 p.2) g) := by
  obtain ⟨h1, h2⟩ := updateAll_spec mem (tr.two v) (fun p => v.addr p.1 p.2) g (tr.nodup_two v)
    (fun p hp q hq e => by
      have hp := (tr.mem_two v p).1 hp
      have hq := (tr.mem_two v q).1 hq
      have := hv _ _ _ _ hp.1 hp.2 hq.1 hq.2 e
      exact Prod.ext this.1 this.2)
    (fun p hp m hm ho => hg p.1 p.2 ((tr.mem_two v p).1 hp).1 ((tr.mem_two v p).1 hp).2 m hm fun x hx => ho x fun q hq e =>
      hx ⟨q.1, q.2, ((tr.mem_two v q).1 hq).1, ((tr.mem_two v q).1 hq).2, e⟩)
  exact ⟨fun i j hi hj => h1 (i, j) ((tr.mem_two v (i, j)).2 ⟨hi, hj⟩), fun x hx => h2 x fun q hq e =>
    hx ⟨q.1, q.2, ((tr.mem_two v q).1 hq).1, ((tr.mem_two v q).1 hq).2, e⟩⟩

end general

variable {α : Type} [Zero α] [One α] [Add α] [Sub α] [Mul α] [Div α] [Neg α] [NdFloat α]

theorem relM_scaledAdd (tr : Traversal) {x y : View1} (hx : x.Inj) (hd : Apart y.In x.In) {m : Mem α} {a b : Arr1 α}
    (ha : Holds1 x m a) (hb : Holds1 y m b) (k : α) :
    RelM (fun m' a' => Holds1 x m' a' ∧ Frame x.In m m') (x.scaledAdd tr k y m) (a.scaledAdd k b) := by
  unfold View1.scaledAdd Arr1.scaledAdd
  rw [ha.len, hb.len]
  split
  · rename_i hl
    obtain ⟨h1, h2⟩ := update_one tr hx m (fun i mem => mem (x.addr i) + k * mem (y.addr i)) (fun i hi m' h h' => by
      rw [h, h' _ (hd _ ⟨i, by omega, rfl⟩)])
    exact ⟨⟨rfl, fun i hi => by
      have hi : i < x.len := hi
      show a.get i + k * b.get i = _
      rw [h1 i hi, ha.get i hi, hb.get i (by omega)]⟩, h2⟩
  · rfl

theorem holds_mapInplace1 (tr : Traversal) {x : View1} (hx : x.Inj) {m : Mem α} {a : Arr1 α} (ha : Holds1 x m a)
    (f : α → α) : Holds1 x (x.mapInplace tr f m) (a.map f) ∧ Frame x.In m (x.mapInplace tr f m) := by
  obtain ⟨h1, h2⟩ := update_one tr hx m (fun i mem => f (mem (x.addr i))) (fun i hi m' h h' => by rw [h])
  exact ⟨⟨ha.len, fun i hi => by
    show f (a.get i) = _
    rw [ha.get i hi]; exact (h1 i hi).symm⟩, h2⟩

theorem holds_mapInplace2 (tr : Traversal) {x : View2} (hx : x.Inj) {m : Mem α} {a : Arr2 α} (ha : Holds x m a)
    (f : α → α) : Writes x m (x.mapInplace tr f m) (a.map f) := by
  obtain ⟨h1, h2⟩ := update_two tr hx m (fun p mem => f (mem (x.addr p.1 p.2)))
    (fun i j hi hj m' h h' => by simp only [h])
  exact ⟨⟨ha.nr, ha.nc, fun i j hi hj => by
    show f (a.get i j) = _
    rw [ha.get i j hi hj]; exact (h1 i j hi hj).symm⟩, h2⟩

theorem dot_load {v w : View1} {m : Mem α} {a b : Arr1 α} (ha : Holds1 v m a) (hb : Holds1 w m b) :
    v.dot w m = a.dot b := by
  unfold View1.dot Arr1.dot
  rw [ha.len, hb.len]
  show (if v.len = w.len then _ else _) = _
  by_cases h : v.len = w.len
  · rw [if_pos h, if_pos h]
    show Except.ok (NdFloat.dot _) = Except.ok (NdFloat.dot _)
    congr 2
    refine List.map_congr_left fun k hk => ?_
    have hk : k < v.len := List.mem_range.1 hk
    show (m (v.addr k), m (w.addr k)) = _
    rw [← ha.get k hk, ← hb.get k (by omega)]
  · rw [if_neg h, if_neg h]

end LinfaLinalg
