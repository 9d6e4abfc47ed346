import Verif.Lemmas.HeapEkf

/-!
`copy` and `plus` on objects about which nothing is assumed, and heaps that change inside a region only.
-/

namespace Verif.Heap

open Verif

set_option linter.unusedVariables false

/-- The result of an allocation that only refers to what it allocates. -/
def AllocOnly (h : Heap) (r' : Ref) (h' : Heap) : Prop :=
  ∃ new : Heap, h' = h ++ new ∧ FreshFrom h.length h new ∧ h.length ≤ r' ∧ r' < h'.length

theorem copyArr_any {h : Heap} {v r' : Ref} {h' : Heap} (he : copyArr h v = .ok (r', h')) : AllocOnly h r' h' := by
  unfold copyArr at he
  obtain ⟨a, ha, h2⟩ := ebind he
  cases h2
  refine ⟨[.arr a], rfl, ?_, le_refl _, by simp⟩
  intro o ho q hq
  rw [List.mem_singleton.mp ho] at hq
  cases hq

/-- Later steps that refer to earlier new objects. -/
theorem AllocOnly.then {h h1 : Heap} {r1 : Ref} (a : AllocOnly h r1 h1) {new : Heap} {r' : Ref}
    (hf : FreshFrom h.length h1 new) (h1' : h.length ≤ r') (h2 : r' < (h1 ++ new).length) :
    AllocOnly h r' (h1 ++ new) := by
  obtain ⟨n1, rfl, f1, _, _⟩ := a
  exact ⟨n1 ++ new, by simp, f1.append hf, h1', h2⟩

theorem newVec_any {h : Heap} {v r' : Ref} {h' : Heap} {s : Option ℝ} {i : Id} (he : newVec h v s i = .ok (r', h')) :
    AllocOnly h r' h' := by
  unfold newVec at he
  obtain ⟨a, ha, h2⟩ := ebind he
  cases h2
  refine ⟨[.arr (.vec a.ravel), .vec h.length a.ravel.length s i], by simp [alloc], ?_, by simp [alloc],
    by simp [alloc]⟩
  intro o ho q hq
  simp only [List.mem_cons, List.not_mem_nil, or_false] at ho
  rcases ho with rfl | rfl
  · cases hq
  · simp only [Obj.refs, List.mem_singleton] at hq
    subst hq
    exact ⟨le_refl _, by simp⟩

/-- A Lie group state may keep the array it is given. -/
theorem newLie_any (Exp : LieCls → Arr → Arr) {c : LieCls} {h : Heap} {v r' : Ref} {h' : Heap} {s : Option ℝ} {i : Id}
    {d : String} {m : ℕ} (hm : m ≤ v) (hml : m ≤ h.length) (he : newLie Exp c h v s i d = .ok (r', h')) :
    ∃ new : Heap, h' = h ++ new ∧ FreshFrom m h new ∧ h.length ≤ r' ∧ r' < h'.length := by
  unfold newLie at he
  obtain ⟨a, ha, h2⟩ := ebind he
  have hv : v < h.length := by
    unfold readArr at ha
    by_contra hn
    rw [List.getElem?_eq_none (not_lt.mp hn)] at ha
    cases ha
  by_cases hs : a.size = c.dof
  · rw [if_pos hs] at h2
    cases h2
    refine ⟨[.arr (Exp c a), .lie c h.length s i d], by simp [alloc], ?_, by simp [alloc],
      by simp [alloc]⟩
    intro o ho q hq
    simp only [List.mem_cons, List.not_mem_nil, or_false] at ho
    rcases ho with rfl | rfl
    · cases hq
    · simp only [Obj.refs, List.mem_singleton] at hq
      subst hq
      exact ⟨hml, by simp⟩
  · rw [if_neg hs] at h2
    cases a with
    | vec l => cases h2
    | mat r k M =>
      simp only [] at h2
      split at h2
      · cases h2
        refine ⟨[.lie c v s i d], rfl, ?_, le_refl _, by simp [alloc]⟩
        intro o ho q hq
        rw [List.mem_singleton.mp ho] at hq
        simp only [Obj.refs, List.mem_singleton] at hq
        subst hq
        exact ⟨hm, by simp; omega⟩
      · cases h2

theorem copyAll_any {f : Heap → Ref → Except Err (Ref × Heap)}
    (ih : ∀ h r r' h', f h r = .ok (r', h') → AllocOnly h r' h') :
    ∀ (l : List Ref) (h : Heap) (rs : List Ref) (h' : Heap), copyAll f h l = .ok (rs, h') →
      ∃ new : Heap, h' = h ++ new ∧ FreshFrom h.length h new ∧ ∀ q ∈ rs, h.length ≤ q ∧ q < h'.length
  | [], h, rs, h', he => by
    unfold copyAll at he
    cases he
    exact ⟨[], by simp, FreshFrom.nil _ _, by simp⟩
  | r :: l, h, rs, h', he => by
    unfold copyAll at he
    obtain ⟨⟨r1, h1⟩, e1, he1⟩ := ebind he
    obtain ⟨⟨rs2, h2⟩, e2, he2⟩ := ebind he1
    cases he2
    obtain ⟨n1, rfl, f1, a1, b1⟩ := ih _ _ _ _ e1
    obtain ⟨n2, rfl, f2, a2⟩ := copyAll_any ih l _ _ _ e2
    refine ⟨n1 ++ n2, by simp, f1.append (f2.weaken (by simp)), ?_⟩
    intro q hq
    rcases List.mem_cons.mp hq with rfl | hq
    · exact ⟨a1, lt_of_lt_of_le b1 (by simp)⟩
    · obtain ⟨x, y⟩ := a2 q hq
      exact ⟨le_trans (by simp) x, y⟩

theorem newImuState_any (Exp : LieCls → Arr → Arr) {h : Heap} {nav bg ba r' : Ref} {h' : Heap} {s : Option ℝ} {i : Id}
    {d : String} {m : ℕ} (hm : m ≤ nav) (hml : m ≤ h.length) (he : newImuState Exp h nav bg ba s i d = .ok (r', h')) :
    ∃ new : Heap, h' = h ++ new ∧ FreshFrom m h new ∧ m ≤ r' ∧ r' < h'.length := by
  unfold newImuState at he
  obtain ⟨⟨r1, h1⟩, e1, he1⟩ := ebind he
  obtain ⟨⟨r2, h2⟩, e2, he2⟩ := ebind he1
  obtain ⟨⟨r3, h3⟩, e3, he3⟩ := ebind he2
  cases he3
  obtain ⟨n1, rfl, f1, a1, b1⟩ := newLie_any Exp hm hml e1
  obtain ⟨n2, rfl, f2, a2, b2⟩ := newVec_any e2
  obtain ⟨n3, rfl, f3, a3, b3⟩ := newVec_any e3
  simp only [List.length_append] at *
  refine ⟨n1 ++ n2 ++ n3 ++ [.list [r1, r2, r3], .imuState (h.length + n1.length + n2.length + n3.length) s i],
    by simp [alloc, Nat.add_assoc], ?_, by simp [alloc]; omega, by simp [alloc]⟩
  refine FreshFrom.append (FreshFrom.append (FreshFrom.append f1 (f2.weaken (by omega)))
    ((by simpa using f3 : FreshFrom (h.length + n1.length + n2.length) (h ++ (n1 ++ n2)) n3).weaken (by omega))) ?_
  intro o ho q hq
  simp only [List.mem_cons, List.not_mem_nil, or_false] at ho
  rcases ho with rfl | rfl
  · simp only [Obj.refs, List.mem_cons, List.not_mem_nil, or_false] at hq
    simp only [List.length_append, List.length_cons, List.length_nil]
    rcases hq with rfl | rfl | rfl <;> omega
  · simp only [Obj.refs, List.mem_singleton] at hq
    simp only [List.length_append, List.length_cons, List.length_nil]
    subst hq
    omega

theorem copyState_any (Exp : LieCls → Arr → Arr) : ∀ (k : ℕ) (h : Heap) (r r' : Ref) (h' : Heap),
    copyState Exp k h r = .ok (r', h') → AllocOnly h r' h'
  | 0, _, _, _, _, he => by cases he
  | k + 1, h, r, r', h', he => by
    unfold copyState at he
    cases ho : h[r]? with
    | none => rw [ho] at he; cases he
    | some o =>
      rw [ho] at he
      cases o with
      | vec v d s i =>
        obtain ⟨⟨v', h1⟩, e1, he1⟩ := ebind he
        have a1 := copyArr_any e1
        obtain ⟨n2, rfl, f2, a2, b2⟩ := newVec_any he1
        have hl : h.length ≤ h1.length := by obtain ⟨n1, rfl, _⟩ := a1; simp
        exact a1.then (f2.weaken hl) (le_trans hl a2) b2
      | lie c v s i d =>
        obtain ⟨⟨v', h1⟩, e1, he1⟩ := ebind he
        have a1 := copyArr_any e1
        have hl : h.length ≤ h1.length := by obtain ⟨n1, rfl, _⟩ := a1; simp
        have hv : h.length ≤ v' := by obtain ⟨_, _, _, x, _⟩ := a1; exact x
        obtain ⟨n2, rfl, f2, a2, b2⟩ := newLie_any Exp hv hl he1
        exact a1.then f2 (le_trans hl a2) b2
      | comp v s i =>
        obtain ⟨l, e0, he0⟩ := ebind he
        obtain ⟨⟨l', h1⟩, e1, he1⟩ := ebind he0
        cases he1
        obtain ⟨n1, rfl, f1, a1⟩ := copyAll_any (copyState_any Exp k) _ _ _ _ e1
        refine ⟨n1 ++ [.list l', .comp (h.length + n1.length) s i], by simp [alloc, newComp], ?_,
          by (simp [alloc, newComp]; try omega), by simp [alloc, newComp]⟩
        refine f1.append ?_
        intro o ho q hq
        simp only [List.mem_cons, List.not_mem_nil, or_false] at ho
        rcases ho with rfl | rfl
        · obtain ⟨x, y⟩ := a1 q hq
          exact ⟨x, by simp only [List.length_append] at *; omega⟩
        · simp only [Obj.refs, List.mem_singleton] at hq
          subst hq
          simp
      | imuState v s i =>
        obtain ⟨l, e0, he0⟩ := ebind he
        unfold copyImuState at he0
        obtain ⟨x0, e1, he1⟩ := ebind he0
        obtain ⟨v0, e2, he2⟩ := ebind he1
        obtain ⟨⟨nav, h1⟩, e3, he3⟩ := ebind he2
        obtain ⟨x1, e4, he4⟩ := ebind he3
        obtain ⟨v1, e5, he5⟩ := ebind he4
        obtain ⟨⟨bg, h2⟩, e6, he6⟩ := ebind he5
        obtain ⟨x2, e7, he7⟩ := ebind he6
        obtain ⟨v2, e8, he8⟩ := ebind he7
        obtain ⟨⟨ba, h3⟩, e9, he9⟩ := ebind he8
        obtain ⟨d, e10, he10⟩ := ebind he9
        obtain ⟨n1, rfl, f1, a1, b1⟩ := copyArr_any e3
        obtain ⟨n2, rfl, f2, a2, b2⟩ := copyArr_any e6
        obtain ⟨n3, rfl, f3, a3, b3⟩ := copyArr_any e9
        obtain ⟨n4, rfl, f4, a4, b4⟩ := newImuState_any Exp (m := h.length) a1
          (by simp only [List.length_append]; omega) he10
        refine ⟨n1 ++ n2 ++ n3 ++ n4, by simp, ?_, a4, b4⟩
        refine FreshFrom.append (FreshFrom.append (FreshFrom.append f1 (f2.weaken (by simp))) ?_) ?_
        · exact (by simpa using f3 : FreshFrom _ (h ++ (n1 ++ n2)) n3).weaken (by simp)
        · simpa using f4
      | _ => cases he

theorem newSwc_any {k : ℕ} {h : Heap} {s c r' : Ref} {h' : Heap} (he : newSwc k h s c = .ok (r', h')) :
    r' = h.length ∧ h' = h ++ [.swc s c] := by
  unfold newSwc at he
  obtain ⟨a, ha, he1⟩ := ebind he
  cases a with
  | vec l => cases he1
  | mat r k M =>
    simp only [] at he1
    split at he1
    · cases he1
    · obtain ⟨d, _, he2⟩ := ebind he1
      split at he2
      · cases he2
      · cases he2; exact ⟨rfl, rfl⟩

theorem copySwc_any (Exp : LieCls → Arr → Arr) {k : ℕ} {h : Heap} {r r' : Ref} {h' : Heap}
    (he : copySwc Exp k h r = .ok (r', h')) : AllocOnly h r' h' := by
  unfold copySwc at he
  obtain ⟨⟨s, c⟩, e0, he0⟩ := ebind he
  obtain ⟨⟨s', h1⟩, e1, he1⟩ := ebind he0
  obtain ⟨⟨c', h2⟩, e2, he2⟩ := ebind he1
  obtain ⟨n1, rfl, f1, a1, b1⟩ := copyState_any Exp _ _ _ _ _ e1
  obtain ⟨n2, rfl, f2, a2, b2⟩ := copyArr_any e2
  obtain ⟨rfl, rfl⟩ := newSwc_any he2
  refine ⟨n1 ++ n2 ++ [.swc s' c'], by simp, ?_, by simp, by simp⟩
  refine FreshFrom.append (FreshFrom.append f1 (f2.weaken (by simp))) ?_
  intro o ho q hq
  rw [List.mem_singleton.mp ho] at hq
  simp only [Obj.refs, List.mem_cons, List.not_mem_nil, or_false] at hq
  simp only [List.length_append, List.length_cons, List.length_nil] at *
  rcases hq with rfl | rfl <;> omega

/-! ### Regions -/

/-- Between the heaps `h0` and `H`, objects of `h0` outside the region `A` have not changed, and nothing in the region
or allocated since refers outside of it. -/
def Inside (A : Ref → Prop) (h0 H : Heap) : Prop :=
  h0.length ≤ H.length ∧ Closed H (fun r => A r ∨ h0.length ≤ r) ∧ ∀ r, ¬ A r → r < h0.length → H[r]? = h0[r]?

theorem Inside.refl {A : Ref → Prop} {h : Heap} (hA : Closed h A) : Inside A h h := by
  refine ⟨le_refl _, ?_, fun _ _ _ => rfl⟩
  intro r o ho hr q hq
  rcases hr with hr | hr
  · exact Or.inl (hA r o ho hr q hq)
  · rw [List.getElem?_eq_none hr] at ho; cases ho

theorem Inside.app {A : Ref → Prop} {h0 H new : Heap} (hi : Inside A h0 H)
    (hf : ∀ o ∈ new, ∀ q ∈ o.refs, A q ∨ h0.length ≤ q) : Inside A h0 (H ++ new) := by
  obtain ⟨h1, h2, h3⟩ := hi
  refine ⟨by simp; omega, ?_, fun r hr hl => by rw [List.getElem?_append_left (by omega), h3 r hr hl]⟩
  intro r o ho hr q hq
  by_cases hlt : r < H.length
  · rw [List.getElem?_append_left hlt] at ho
    exact h2 r o ho hr q hq
  · rw [List.getElem?_append_right (not_lt.mp hlt)] at ho
    exact hf o (List.mem_of_getElem? ho) q hq

theorem Inside.alloc {A : Ref → Prop} {h0 H h' : Heap} {r' : Ref} (hi : Inside A h0 H) (ha : AllocOnly H r' h') :
    Inside A h0 h' ∧ h0.length ≤ r' := by
  obtain ⟨new, rfl, f, l, _⟩ := ha
  exact ⟨hi.app fun o ho q hq => Or.inr (le_trans hi.1 (f o ho q hq).1), le_trans hi.1 l⟩

theorem Inside.set {A : Ref → Prop} {h0 H : Heap} (hi : Inside A h0 H) {r : Ref} (hr : A r ∨ h0.length ≤ r) (o : Obj)
    (ho : ∀ q ∈ o.refs, A q ∨ h0.length ≤ q) : Inside A h0 (H.set r o) := by
  obtain ⟨h1, h2, h3⟩ := hi
  refine ⟨by simpa using h1, ?_, ?_⟩
  · intro s o' hs hsA q hq
    rw [List.getElem?_set] at hs
    split at hs
    · split at hs
      · cases hs; exact ho q hq
      · cases hs
    · exact h2 s o' hs hsA q hq
  · intro s hsA hsl
    have : r ≠ s := by
      rintro rfl
      rcases hr with hr | hr
      · exact hsA hr
      · omega
    rw [set_get_ne this, h3 s hsA hsl]

/-- What a piece of code holding the references `args` does to the heap, and the references it returns. -/
def Acts (h : Heap) (args : List Ref) (h' : Heap) (res : List Ref) : Prop :=
  ∃ cs : List Cmd, h' = (runCmds cs h args).1 ∧ ∀ r ∈ res, r ∈ (runCmds cs h args).2

theorem Inside.acts {A : Ref → Prop} {h0 H h' : Heap} {args res : List Ref} (hi : Inside A h0 H)
    (ha : ∀ r ∈ args, A r ∨ h0.length ≤ r) (hc : Acts H args h' res) :
    Inside A h0 h' ∧ ∀ r ∈ res, A r ∨ h0.length ≤ r := by
  obtain ⟨cs, rfl, h2⟩ := hc
  obtain ⟨c1, c2, c3, c4⟩ := confined_full (A := A) h0.length cs H args hi.1 hi.2.1 ha
  exact ⟨⟨le_trans hi.1 c1, c3, fun r hr hl => by rw [c2 r hr hl, hi.2.2 r hr hl]⟩, fun r hr => c4 r (h2 r hr)⟩

theorem setStamp_any {h h' : Heap} {r : Ref} {s : Option ℝ} (he : setStamp h r s = .ok h') :
    ∃ o o' : Obj, h[r]? = some o ∧ h' = h.set r o' ∧ o'.refs = o.refs := by
  unfold setStamp at he
  cases ho : h[r]? with
  | none => rw [ho] at he; cases he
  | some o =>
    rw [ho] at he
    cases o with
    | vec v d s i => cases he; exact ⟨_, _, rfl, rfl, rfl⟩
    | lie c v s i d => cases he; exact ⟨_, _, rfl, rfl, rfl⟩
    | comp v s i => cases he; exact ⟨_, _, rfl, rfl, rfl⟩
    | imuState v s i => cases he; exact ⟨_, _, rfl, rfl, rfl⟩
    | _ => cases he

theorem setValue_any {h h' : Heap} {r v : Ref} (he : setValue h r v = .ok h') :
    ∃ o' : Obj, h' = h.set r o' ∧ o'.refs = [v] := by
  unfold setValue at he
  cases ho : h[r]? with
  | none => rw [ho] at he; cases he
  | some o =>
    rw [ho] at he
    cases o with
    | vec v d s i => cases he; exact ⟨_, rfl, rfl⟩
    | lie c v s i d => cases he; exact ⟨_, rfl, rfl⟩
    | comp v s i => cases he; exact ⟨_, rfl, rfl⟩
    | imuState v s i => cases he; exact ⟨_, rfl, rfl⟩
    | _ => cases he

theorem readSwc_inv {h : Heap} {r s c : Ref} (he : readSwc h r = .ok (s, c)) : h[r]? = some (.swc s c) := by
  unfold readSwc at he
  cases ho : h[r]? with
  | none => rw [ho] at he; cases he
  | some o =>
    rw [ho] at he
    cases o with
    | swc a b => cases he; rfl
    | _ => cases he

theorem Inside.setStamp {A : Ref → Prop} {h0 H h' : Heap} {r : Ref} {s : Option ℝ} (hi : Inside A h0 H)
    (hr : A r ∨ h0.length ≤ r) (he : setStamp H r s = .ok h') : Inside A h0 h' := by
  obtain ⟨o, o', h1, rfl, h3⟩ := setStamp_any he
  refine hi.set hr o' ?_
  rw [h3]
  exact hi.2.1 r o h1 hr

theorem Inside.setSwcState {A : Ref → Prop} {h0 H h' : Heap} {r s : Ref} (hi : Inside A h0 H)
    (hr : A r ∨ h0.length ≤ r) (hs : A s ∨ h0.length ≤ s) (he : setSwcState H r s = .ok h') : Inside A h0 h' := by
  unfold Heap.setSwcState at he
  cases ho : H[r]? with
  | none => rw [ho] at he; cases he
  | some o =>
    rw [ho] at he
    cases o with
    | swc a b =>
      cases he
      refine hi.set hr _ ?_
      intro q hq
      simp only [Obj.refs, List.mem_cons, List.not_mem_nil, or_false] at hq
      rcases hq with rfl | rfl
      · exact hs
      · exact hi.2.1 r _ ho hr _ (by simp [Obj.refs])
    | _ => cases he

theorem Inside.setSwcCov {A : Ref → Prop} {h0 H h' : Heap} {r s : Ref} (hi : Inside A h0 H)
    (hr : A r ∨ h0.length ≤ r) (hs : A s ∨ h0.length ≤ s) (he : setSwcCov H r s = .ok h') : Inside A h0 h' := by
  unfold Heap.setSwcCov at he
  cases ho : H[r]? with
  | none => rw [ho] at he; cases he
  | some o =>
    rw [ho] at he
    cases o with
    | swc a b =>
      cases he
      refine hi.set hr _ ?_
      intro q hq
      simp only [Obj.refs, List.mem_cons, List.not_mem_nil, or_false] at hq
      rcases hq with rfl | rfl
      · exact hi.2.1 r _ ho hr _ (by simp [Obj.refs])
      · exact hs
    | _ => cases he

theorem Inside.arr {A : Ref → Prop} {h0 H : Heap} (hi : Inside A h0 H) (a : Arr) : Inside A h0 (H ++ [.arr a]) :=
  hi.app fun o ho q hq => by rw [List.mem_singleton.mp ho] at hq; cases hq

/-- `plus` allocates, and writes into its own copy only. -/
theorem plusAll_any {k : ℕ} {f : Heap → Ref → List ℝ → Except Err (Ref × Heap)}
    (ih : ∀ h r dx r' h', f h r dx = .ok (r', h') → AllocOnly h r' h') :
    ∀ (l : List Ref) (h : Heap) (dx : List ℝ) (rs : List Ref) (h' : Heap), plusAll k f h l dx = .ok (rs, h') →
      ∃ new : Heap, h' = h ++ new ∧ FreshFrom h.length h new ∧ ∀ q ∈ rs, h.length ≤ q ∧ q < h'.length
  | [], h, dx, rs, h', he => by
    unfold plusAll at he
    cases he
    exact ⟨[], by simp, FreshFrom.nil _ _, by simp⟩
  | r :: l, h, dx, rs, h', he => by
    unfold plusAll at he
    obtain ⟨d, e0, he0⟩ := ebind he
    obtain ⟨⟨r1, h1⟩, e1, he1⟩ := ebind he0
    obtain ⟨⟨rs2, h2⟩, e2, he2⟩ := ebind he1
    cases he2
    obtain ⟨n1, rfl, f1, a1, b1⟩ := ih _ _ _ _ _ e1
    obtain ⟨n2, rfl, f2, a2⟩ := plusAll_any ih l _ _ _ _ e2
    refine ⟨n1 ++ n2, by simp, f1.append (f2.weaken (by simp)), ?_⟩
    intro q hq
    rcases List.mem_cons.mp hq with rfl | hq
    · exact ⟨a1, lt_of_lt_of_le b1 (by simp)⟩
    · obtain ⟨x, y⟩ := a2 q hq
      exact ⟨le_trans (by simp) x, y⟩

/-- Binding the value of a new object to a newer one. -/
theorem AllocOnly.bindValue {h h1 new h' : Heap} {n v' : Ref} (a : AllocOnly h n h1) (hf : FreshFrom h.length h1 new)
    (hv : h.length ≤ v') (hv2 : v' < (h1 ++ new).length) (he : setValue (h1 ++ new) n v' = .ok h') :
    AllocOnly h n h' := by
  obtain ⟨n1, rfl, f1, a1, b1⟩ := a
  obtain ⟨o', rfl, ho'⟩ := setValue_any he
  refine ⟨(n1 ++ new).set (n - h.length) o', ?_, ?_, a1, ?_⟩
  · rw [List.append_assoc, set_new a1]
  · refine (f1.append hf).set _ _ ?_
    rw [ho']
    intro q hq
    rw [List.mem_singleton.mp hq]
    exact ⟨hv, by simpa using hv2⟩
  · simp only [List.length_set, List.length_append] at *; omega

theorem plusState_any (Exp : LieCls → Arr → Arr) (P : LiePlus) : ∀ (k : ℕ) (h : Heap) (r : Ref) (dx : List ℝ)
    (r' : Ref) (h' : Heap), plusState Exp P k h r dx = .ok (r', h') → AllocOnly h r' h'
  | 0, _, _, _, _, _, he => by cases he
  | k + 1, h, r, dx, r', h', he => by
    unfold plusState at he
    obtain ⟨⟨n, h1⟩, e1, he1⟩ := ebind he
    have a1 := copyState_any Exp _ _ _ _ _ e1
    have hl : h.length ≤ h1.length := by obtain ⟨n1, rfl, _⟩ := a1; simp
    have arrFresh : ∀ a : Arr, FreshFrom h.length h1 [.arr a] := by
      intro a o ho q hq
      rw [List.mem_singleton.mp ho] at hq
      cases hq
    have listCase : ∀ {H : Except Err (Ref × Heap)}, H = (do
        let v ← valueOf h1 n
        let l ← readList h1 v
        let (l', h2) ← plusAll k (plusState Exp P k) h1 l dx
        let (v', h3) := alloc h2 (.list l')
        let h4 ← setValue h3 n v'
        return (n, h4)) → H = .ok (r', h') → AllocOnly h r' h' := by
      intro H hH hH'
      rw [hH] at hH'
      obtain ⟨v, _, he2⟩ := ebind hH'
      obtain ⟨l, _, he3⟩ := ebind he2
      obtain ⟨⟨l', h2⟩, e4, he4⟩ := ebind he3
      obtain ⟨h4, e5, he5⟩ := ebind he4
      cases he5
      obtain ⟨n2, rfl, f2, a2⟩ := plusAll_any (plusState_any Exp P k) _ _ _ _ _ e4
      refine a1.bindValue (new := n2 ++ [.list l']) (v' := (h1 ++ n2).length) ?_ (by simp; omega)
        (by simp) (by simpa [alloc] using e5)
      refine FreshFrom.append (f2.weaken hl) ?_
      intro o ho q hq
      rw [List.mem_singleton.mp ho] at hq
      obtain ⟨x, y⟩ := a2 q hq
      exact ⟨le_trans hl x, by simp only [List.length_append] at *; omega⟩
    cases ho : h1[r]? with
    | none => simp only [ho] at he1; exact listCase rfl he1
    | some o =>
      simp only [ho] at he1
      cases o with
      | vec v d s i =>
        simp only [] at he1
        split at he1
        · obtain ⟨v, _, he2⟩ := ebind he1
          obtain ⟨a, _, he3⟩ := ebind he2
          obtain ⟨h4, e5, he5⟩ := ebind he3
          cases he5
          exact a1.bindValue (arrFresh _) hl (by simp) e5
        · cases he1
      | lie c v s i d =>
        obtain ⟨M, _, he2⟩ := ebind he1
        obtain ⟨M', _, he3⟩ := ebind he2
        obtain ⟨h4, e5, he5⟩ := ebind he3
        cases he5
        exact a1.bindValue (arrFresh _) hl (by simp) e5
      | _ => exact listCase rfl he1

end Verif.Heap
