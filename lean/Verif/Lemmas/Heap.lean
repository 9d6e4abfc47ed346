import Verif.Model.Heap
import Verif.Lemmas.Iekf

/-!
Lemmas about the heap: growing it, confined programs, and the specification of `copy`.
-/

namespace Verif.Heap

open Verif

set_option linter.unusedVariables false
set_option linter.unusedSectionVars false

/-! ### Growing -/

theorem get_grow {h new : Heap} {r : Ref} {o : Obj} (hr : h[r]? = some o) : (h ++ new)[r]? = some o := by
  obtain ⟨hlt, he⟩ := List.getElem?_eq_some_iff.mp hr
  rw [List.getElem?_append_left hlt, hr]

theorem get_last (h : Heap) (o : Obj) : (h ++ [o])[h.length]? = some o := by
  rw [List.getElem?_append_right (le_refl _), Nat.sub_self]; rfl

theorem arrAt_grow {h new : Heap} {r : Ref} {a : Arr} (hr : arrAt h r = some a) :
    arrAt (h ++ new) r = some a := by
  unfold arrAt at hr ⊢
  cases hc : h[r]? with
  | none => rw [hc] at hr; cases hr
  | some o => rw [get_grow hc]; rw [hc] at hr; exact hr

theorem listAt_grow {h new : Heap} {r : Ref} {l : List Ref} (hr : listAt h r = some l) :
    listAt (h ++ new) r = some l := by
  unfold listAt at hr ⊢
  cases hc : h[r]? with
  | none => rw [hc] at hr; cases hr
  | some o => rw [get_grow hc]; rw [hc] at hr; exact hr

theorem arrAt_some {h : Heap} {r : Ref} {a : Arr} (hr : arrAt h r = some a) : h[r]? = some (.arr a) := by
  unfold arrAt at hr
  split at hr
  · rename_i b hb; cases hr; exact hb
  · cases hr

theorem listAt_some {h : Heap} {r : Ref} {l : List Ref} (hr : listAt h r = some l) :
    h[r]? = some (.list l) := by
  unfold listAt at hr
  split at hr
  · rename_i b hb; cases hr; exact hb
  · cases hr

theorem readArr_of {h : Heap} {r : Ref} {a : Arr} (hr : arrAt h r = some a) : readArr h r = .ok a := by
  unfold readArr; rw [arrAt_some hr]

theorem readList_of {h : Heap} {r : Ref} {a : List Ref} (hr : listAt h r = some a) : readList h r = .ok a := by
  unfold readList; rw [listAt_some hr]

theorem mapM_congr {α β : Type} {f g : α → Option β} :
    ∀ {l : List α}, (∀ a ∈ l, f a = g a) → l.mapM f = l.mapM g
  | [], _ => rfl
  | a :: l, hl => by
    rw [List.mapM_cons, List.mapM_cons, hl a (by simp), mapM_congr (l := l) (fun b hb => hl b (by simp [hb]))]

theorem mapM_mono {α β : Type} {f g : α → Option β} :
    ∀ {l : List α} {ts : List β}, l.mapM f = some ts → (∀ a t, a ∈ l → f a = some t → g a = some t) →
      l.mapM g = some ts
  | [], ts, hl, _ => by simpa using hl
  | a :: l, ts, hl, hg => by
    rw [List.mapM_cons] at hl ⊢
    cases hfa : f a with
    | none => rw [hfa] at hl; cases hl
    | some t =>
      rw [hfa] at hl
      cases hfl : l.mapM f with
      | none => rw [hfl] at hl; cases hl
      | some ts' =>
        rw [hfl] at hl
        rw [hg a t (by simp) hfa, mapM_mono (l := l) hfl (fun b t hb => hg b t (by simp [hb]))]
        exact hl

/-- Bind of options inverted. -/
theorem obind {α β : Type} {x : Option α} {f : α → Option β} {b : β} (h : (x >>= f) = some b) :
    ∃ a, x = some a ∧ f a = some b := by
  cases x with
  | none => cases h
  | some a => exact ⟨a, rfl, h⟩

/-- Growing the heap does not change what is in it. -/
theorem contents_grow {new : Heap} : ∀ {k : ℕ} {h : Heap} {r : Ref} {t : STree},
    contents k h r = some t → contents k (h ++ new) r = some t
  | 0, h, r, t, hc => by cases hc
  | k + 1, h, r, t, hc => by
    unfold contents at hc ⊢
    cases ho : h[r]? with
    | none => rw [ho] at hc; cases hc
    | some o =>
      rw [get_grow ho]
      rw [ho] at hc
      cases o with
      | vec v d s i =>
        obtain ⟨a, ha, hc⟩ := obind hc
        show (arrAt (h ++ new) v >>= _) = _
        rw [arrAt_grow ha]; exact hc
      | lie c v s i d =>
        obtain ⟨a, ha, hc⟩ := obind hc
        show (arrAt (h ++ new) v >>= _) = _
        rw [arrAt_grow ha]; exact hc
      | comp v s i =>
        obtain ⟨l, hl, hc⟩ := obind hc
        obtain ⟨ts, hts, hc⟩ := obind hc
        show (listAt (h ++ new) v >>= _) = _
        rw [listAt_grow hl]
        show (List.mapM (contents k (h ++ new)) l >>= _) = _
        rw [mapM_mono hts (fun a t _ ht => contents_grow ht)]
        exact hc
      | imuState v s i =>
        obtain ⟨l, hl, hc⟩ := obind hc
        obtain ⟨ts, hts, hc⟩ := obind hc
        show (listAt (h ++ new) v >>= _) = _
        rw [listAt_grow hl]
        show (List.mapM (contents k (h ++ new)) l >>= _) = _
        rw [mapM_mono hts (fun a t _ ht => contents_grow ht)]
        exact hc
      | _ => cases hc

/-! ### Regions -/

/-- A set of references closed under following references. -/
def Closed (h : Heap) (A : Ref → Prop) : Prop := ∀ r o, h[r]? = some o → A r → ∀ q ∈ o.refs, A q

/-- What is seen from inside a closed region depends on that region only. -/
theorem contents_frame {h h' : Heap} {A : Ref → Prop} (hA : Closed h A)
    (heq : ∀ r, A r → h'[r]? = h[r]?) : ∀ (k : ℕ) (r : Ref), A r → contents k h' r = contents k h r
  | 0, _, _ => rfl
  | k + 1, r, hr => by
    unfold contents
    rw [heq r hr]
    cases ho : h[r]? with
    | none => rfl
    | some o =>
      have hcl := hA r o ho hr
      cases o with
      | vec v d s i =>
        have : arrAt h' v = arrAt h v := by unfold arrAt; rw [heq v (hcl v (by simp [Obj.refs]))]
        simp only [this]
      | lie c v s i d =>
        have : arrAt h' v = arrAt h v := by unfold arrAt; rw [heq v (hcl v (by simp [Obj.refs]))]
        simp only [this]
      | comp v s i =>
        have hv := hcl v (by simp [Obj.refs])
        have h1 : listAt h' v = listAt h v := by unfold listAt; rw [heq v hv]
        simp only [h1]
        cases hl : listAt h v with
        | none => rfl
        | some l =>
          have : l.mapM (contents k h') = l.mapM (contents k h) :=
            mapM_congr fun q hq => contents_frame hA heq k q (hA v _ (listAt_some hl) hv q (by simpa [Obj.refs] using hq))
          show (List.mapM (contents k h') l >>= _) = (List.mapM (contents k h) l >>= _)
          rw [this]
      | imuState v s i =>
        have hv := hcl v (by simp [Obj.refs])
        have h1 : listAt h' v = listAt h v := by unfold listAt; rw [heq v hv]
        simp only [h1]
        cases hl : listAt h v with
        | none => rfl
        | some l =>
          have : l.mapM (contents k h') = l.mapM (contents k h) :=
            mapM_congr fun q hq => contents_frame hA heq k q (hA v _ (listAt_some hl) hv q (by simpa [Obj.refs] using hq))
          show (List.mapM (contents k h') l >>= _) = (List.mapM (contents k h) l >>= _)
          rw [this]
      | _ => rfl

/-- A program confined to a region (it starts with references into it, and the region is closed) changes no object
outside the region. -/
theorem confined_full {A : Ref → Prop} : ∀ (n : ℕ) (cs : List Cmd) (h : Heap) (vars : List Ref), n ≤ h.length →
      Closed h (fun r => A r ∨ n ≤ r) → (∀ v ∈ vars, A v ∨ n ≤ v) →
      h.length ≤ (runCmds cs h vars).1.length ∧
      (∀ r, ¬ A r → r < n → (runCmds cs h vars).1[r]? = h[r]?) ∧
      Closed (runCmds cs h vars).1 (fun r => A r ∨ n ≤ r) ∧ (∀ v ∈ (runCmds cs h vars).2, A v ∨ n ≤ v) := by
  intro n cs
  induction cs with
  | nil => intro h vars _ h1 h2; exact ⟨le_refl _, fun r _ _ => rfl, h1, h2⟩
  | cons c cs ih =>
    intro h vars hn hc hv
    have key : h.length ≤ (c.step h vars).1.length ∧ Closed (c.step h vars).1 (fun r => A r ∨ n ≤ r) ∧
        (∀ v ∈ (c.step h vars).2, A v ∨ n ≤ v) ∧ ∀ r, ¬ A r → r < n → (c.step h vars).1[r]? = h[r]? := by
      cases c with
      | load v a =>
        cases h1 : vars[v]? with
        | none => simp only [Cmd.step, h1]; exact ⟨le_refl _, hc, hv, fun _ _ _ => by first | rfl | trivial⟩
        | some r =>
          cases h2 : h[r]? with
          | none => simp only [Cmd.step, h1, h2]; exact ⟨le_refl _, hc, hv, fun _ _ _ => by first | rfl | trivial⟩
          | some o =>
            cases h3 : o.refs[a]? with
            | none => simp only [Cmd.step, h1, h2, h3]; exact ⟨le_refl _, hc, hv, fun _ _ _ => by first | rfl | trivial⟩
            | some q =>
              simp only [Cmd.step, h1, h2, h3]
              refine ⟨le_refl _, hc, ?_, fun _ _ _ => by first | rfl | trivial⟩
              intro w hw
              rcases List.mem_append.mp hw with hw | hw
              · exact hv w hw
              · rw [List.mem_singleton.mp hw]
                exact hc r o h2 (hv r (List.mem_of_getElem? h1)) q (List.mem_of_getElem? h3)
      | store v o =>
        cases h1 : vars[v]? with
        | none => simp only [Cmd.step, h1]; exact ⟨le_refl _, hc, hv, fun _ _ _ => by first | rfl | trivial⟩
        | some r =>
          simp only [Cmd.step, h1]
          by_cases ho : ∀ q ∈ o.refs, q ∈ vars
          · rw [if_pos ho]
            have hr := hv r (List.mem_of_getElem? h1)
            refine ⟨by simp, ?_, hv, ?_⟩
            · intro s o' hs hsA q hq
              simp only [] at hs
              rw [List.getElem?_set] at hs
              by_cases hrs : r = s
              · rw [if_pos hrs] at hs
                split at hs
                · cases hs; exact hv q (ho q hq)
                · cases hs
              · rw [if_neg hrs] at hs
                exact hc s o' hs hsA q hq
            · intro s hsA hsn
              have : r ≠ s := by
                rintro rfl
                rcases hr with h' | h'
                · exact hsA h'
                · exact (Nat.not_le.mpr hsn) h'
              simp only []
              rw [List.getElem?_set, if_neg this]
          · rw [if_neg ho]; exact ⟨le_refl _, hc, hv, fun _ _ _ => by first | rfl | trivial⟩
      | new o =>
        by_cases ho : ∀ q ∈ o.refs, q ∈ vars
        · simp only [Cmd.step]
          rw [if_pos ho]
          refine ⟨by simp, ?_, ?_, ?_⟩
          · intro s o' hs hsA q hq
            by_cases hlt : s < h.length
            · simp only [] at hs
              rw [List.getElem?_append_left hlt] at hs
              exact hc s o' hs hsA q hq
            · have hs' : o' = o := by
                simp only [] at hs
                rw [List.getElem?_append_right (not_lt.mp hlt)] at hs
                have := List.mem_of_getElem? hs
                exact List.mem_singleton.mp this
              subst hs'
              exact hv q (ho q hq)
          · intro w hw
            rcases List.mem_append.mp hw with hw | hw
            · exact hv w hw
            · rw [List.mem_singleton.mp hw]; exact Or.inr hn
          · intro s hsA hsn
            exact List.getElem?_append_left (lt_of_lt_of_le hsn hn)
        · simp only [Cmd.step]
          rw [if_neg ho]; exact ⟨le_refl _, hc, hv, fun _ _ _ => by first | rfl | trivial⟩
    obtain ⟨k1, k2, k3, k4⟩ := key
    obtain ⟨i1, i2, i3, i4⟩ := ih (c.step h vars).1 (c.step h vars).2 (le_trans hn k1) k2 k3
    refine ⟨le_trans k1 i1, fun r hr hrn => ?_, i3, i4⟩
    show (runCmds cs (c.step h vars).1 (c.step h vars).2).1[r]? = _
    rw [i2 r hr hrn, k4 r hr hrn]

theorem confined {A : Ref → Prop} (cs : List Cmd) (h : Heap) (vars : List Ref)
    (hc : Closed h (fun r => A r ∨ h.length ≤ r)) (hv : ∀ v ∈ vars, A v ∨ h.length ≤ v) :
    h.length ≤ (runCmds cs h vars).1.length ∧
    ∀ r, ¬ A r → r < h.length → (runCmds cs h vars).1[r]? = h[r]? :=
  let H := confined_full h.length cs h vars (le_refl _) hc hv
  ⟨H.1, H.2.1⟩

/-! ### The specification of `copy` -/

/-- The objects added to `h` refer to objects at or above `m` only, all of them allocated. -/
def FreshFrom (m : ℕ) (h new : Heap) : Prop := ∀ o ∈ new, ∀ q ∈ o.refs, m ≤ q ∧ q < (h ++ new).length

theorem FreshFrom.nil (m : ℕ) (h : Heap) : FreshFrom m h [] := by
  intro o ho; cases ho

theorem FreshFrom.append {m : ℕ} {h n1 n2 : Heap} (h1 : FreshFrom m h n1) (h2 : FreshFrom m (h ++ n1) n2) :
    FreshFrom m h (n1 ++ n2) := by
  intro o ho q hq
  rcases List.mem_append.mp ho with ho | ho
  · obtain ⟨a, b⟩ := h1 o ho q hq
    refine ⟨a, lt_of_lt_of_le b ?_⟩
    simp only [List.length_append]; omega
  · obtain ⟨a, b⟩ := h2 o ho q hq
    rw [List.append_assoc] at b
    exact ⟨a, b⟩

theorem FreshFrom.weaken {m m' : ℕ} {h new : Heap} (h1 : FreshFrom m h new) (hm : m' ≤ m) :
    FreshFrom m' h new := fun o ho q hq => ⟨le_trans hm (h1 o ho q hq).1, (h1 o ho q hq).2⟩

theorem get_off (h new : Heap) (i : ℕ) : (h ++ new)[h.length + i]? = new[i]? := by
  rw [List.getElem?_append_right (by omega), Nat.add_sub_cancel_left]

theorem get_off0 (h new : Heap) : (h ++ new)[h.length]? = new[0]? := get_off h new 0

theorem WF.grow {m : ℕ} {h new : Heap} (hw : WF h) (hf : FreshFrom m h new) : WF (h ++ new) := by
  intro o ho q hq
  rcases List.mem_append.mp ho with ho | ho
  · have := hw o ho q hq
    simp only [List.length_append]; omega
  · exact (hf o ho q hq).2

theorem asVec_some {d : ℕ} {a : Arr} {l : List ℝ} (h : asVec d a = some l) : a = .vec l ∧ l.length = d := by
  unfold asVec at h
  split at h
  · split at h
    · rename_i hl; cases h; exact ⟨rfl, hl⟩
    · cases h
  · cases h

/-- `array.copy()`. -/
theorem copyArr_spec {h : Heap} {v : Ref} {a : Arr} (ha : arrAt h v = some a) :
    copyArr h v = .ok (h.length, h ++ [.arr a]) := by
  unfold copyArr
  rw [readArr_of ha]; rfl

theorem arrAt_off {h new : Heap} {i : ℕ} {a : Arr} (ha : new[i]? = some (.arr a)) :
    arrAt (h ++ new) (h.length + i) = some a := by
  unfold arrAt; rw [get_off, ha]

theorem listAt_off {h new : Heap} {i : ℕ} {a : List Ref} (ha : new[i]? = some (.list a)) :
    listAt (h ++ new) (h.length + i) = some a := by
  unfold listAt; rw [get_off, ha]

theorem newVec_spec {h : Heap} {v : Ref} {l : List ℝ} (ha : arrAt h v = some (.vec l)) (s : Option ℝ) (i : Id) :
    newVec h v s i = .ok (h.length + 1, h ++ [.arr (.vec l), .vec h.length l.length s i]) := by
  unfold newVec
  rw [readArr_of ha]
  show Except.ok (alloc (h ++ [.arr (.vec l)]) (.vec h.length l.length s i)) = _
  simp [alloc]

theorem asSquare_some {c : LieCls} {a : Arr} {M : Σ n, Mat n n} (h : asSquare c a = some M) :
    a = .mat M.1 M.1 M.2 ∧ M.1 * M.1 ≠ c.dof := by
  unfold asSquare at h
  split at h
  · cases h
  · rename_i r k N
    split at h
    · rename_i hrk
      subst hrk
      split at h
      · cases h
      · rename_i hd
        cases h
        exact ⟨rfl, hd⟩
    · cases h

theorem asSquare_mat {c : LieCls} {n : ℕ} (M : Mat n n) (h : n * n ≠ c.dof) :
    asSquare c (.mat n n M) = some ⟨n, M⟩ := by
  simp only [asSquare]
  rw [dif_pos trivial, if_neg h]; rfl

theorem newLie_spec (Exp : LieCls → Arr → Arr) {h : Heap} {v : Ref} {a : Arr} {c : LieCls} {M : Σ n, Mat n n}
    (ha : arrAt h v = some a) (hM : asSquare c a = some M) (s : Option ℝ) (i : Id) (d : String) :
    newLie Exp c h v s i d = .ok (h.length, h ++ [.lie c v s i d]) := by
  obtain ⟨rfl, hd⟩ := asSquare_some hM
  unfold newLie
  rw [readArr_of ha]
  show (if M.1 * M.1 = c.dof then _ else _) = _
  rw [if_neg hd]
  show (if M.1 = M.1 then _ else _) = _
  rw [if_pos rfl]; rfl

theorem contents_vec {h : Heap} {r v : Ref} {l : List ℝ} {s : Option ℝ} {i : Id} (k : ℕ)
    (hr : h[r]? = some (.vec v l.length s i)) (hv : arrAt h v = some (.vec l)) :
    contents (k + 1) h r = some (.vec l s i) := by
  unfold contents
  rw [hr]
  show (arrAt h v >>= _) = _
  rw [hv]
  show (asVec l.length (.vec l) >>= _) = _
  unfold asVec
  simp

theorem contents_lie {h : Heap} {r v : Ref} {c : LieCls} {a : Arr} {M : Σ n, Mat n n} {s : Option ℝ} {i : Id}
    {d : String} (k : ℕ) (hr : h[r]? = some (.lie c v s i d)) (hv : arrAt h v = some a)
    (hM : asSquare c a = some M) : contents (k + 1) h r = some (.lie c M.1 M.2 s i d) := by
  unfold contents
  rw [hr]
  show (arrAt h v >>= _) = _
  rw [hv]
  show (asSquare c a >>= _) = _
  rw [hM]; rfl

/-- What a copy is: fresh, and with the contents of the original. -/
def CopySpec (k : ℕ) (h : Heap) (t : STree) (res : Except Err (Ref × Heap)) : Prop :=
  ∃ (r' : Ref) (new : Heap), res = .ok (r', h ++ new) ∧ h.length ≤ r' ∧ r' < (h ++ new).length ∧
    FreshFrom h.length h new ∧ contents k (h ++ new) r' = some t

theorem copyAll_spec (Exp : LieCls → Arr → Arr) {k : ℕ}
    (ih : ∀ h r t, contents k h r = some t → CopySpec k h (copied t) (copyState Exp k h r)) :
    ∀ (l : List Ref) (h : Heap) (ts : List STree), l.mapM (contents k h) = some ts →
      ∃ (rs : List Ref) (new : Heap), copyAll (copyState Exp k) h l = .ok (rs, h ++ new) ∧
        (∀ q ∈ rs, h.length ≤ q ∧ q < (h ++ new).length) ∧ FreshFrom h.length h new ∧
        rs.mapM (contents k (h ++ new)) = some (copiedAll ts)
  | [], h, ts, hts => by
    have : ts = [] := by simpa using hts.symm
    subst this
    refine ⟨[], [], by simp [copyAll], by simp, FreshFrom.nil _ _, by simp [copiedAll]⟩
  | r :: l, h, ts, hts => by
    rw [List.mapM_cons] at hts
    obtain ⟨t, ht, hts⟩ := obind hts
    obtain ⟨ts', hts', hts⟩ := obind hts
    have hts : t :: ts' = ts := by simpa using hts
    subst hts
    obtain ⟨r', n1, h1, h2, h3, h4, h5⟩ := ih h r t ht
    obtain ⟨rs, n2, g1, g2, g3, g4⟩ := copyAll_spec Exp ih l (h ++ n1) ts'
      (mapM_mono hts' fun a t _ ha => contents_grow ha)
    rw [List.append_assoc] at g1 g2 g4
    refine ⟨r' :: rs, n1 ++ n2, ?_, ?_, ?_, ?_⟩
    · unfold copyAll
      rw [h1]
      show (copyAll (copyState Exp k) (h ++ n1) l >>= _) = _
      rw [g1]; rfl
    · intro q hq
      rcases List.mem_cons.mp hq with rfl | hq
      · refine ⟨h2, lt_of_lt_of_le h3 ?_⟩
        simp only [List.length_append]; omega
      · refine ⟨le_trans ?_ (g2 q hq).1, (g2 q hq).2⟩
        simp
    · refine h4.append (g3.weaken ?_)
      simp
    · rw [List.mapM_cons]
      have := contents_grow (new := n2) h5
      rw [List.append_assoc] at this
      rw [this, g4]
      simp [copiedAll]

theorem asImu_some {s : Option ℝ} {i : Id} {ts : List STree} {t : STree} (h : asImu s i ts = some t) :
    ∃ n M s0 i0 d g s1 i1 a s2 i2, ts = [.lie .SE23 n M s0 i0 d, .vec g s1 i1, .vec a s2 i2] ∧
      t = .imu (.lie .SE23 n M s0 i0 d) (.vec g s1 i1) (.vec a s2 i2) s i := by
  unfold asImu at h
  split at h
  · cases h
    exact ⟨_, _, _, _, _, _, _, _, _, _, _, rfl, rfl⟩
  · cases h

theorem contents_vec_inv {k : ℕ} {h : Heap} {r : Ref} {l : List ℝ} {s : Option ℝ} {i : Id}
    (hc : contents k h r = some (.vec l s i)) :
    ∃ v, h[r]? = some (.vec v l.length s i) ∧ arrAt h v = some (.vec l) := by
  cases k with
  | zero => cases hc
  | succ k =>
    unfold contents at hc
    cases ho : h[r]? with
    | none => rw [ho] at hc; cases hc
    | some o =>
      rw [ho] at hc
      cases o with
      | vec v d s i =>
        obtain ⟨a, ha, hc⟩ := obind hc
        obtain ⟨l', hl, hc2⟩ := obind hc
        obtain ⟨rfl, rfl⟩ := asVec_some hl
        cases hc2
        exact ⟨v, rfl, ha⟩
      | lie c v s i d =>
        obtain ⟨a, ha, hc⟩ := obind hc
        obtain ⟨l', hl, hc⟩ := obind hc
        cases hc
      | comp v s i =>
        obtain ⟨a, ha, hc⟩ := obind hc
        obtain ⟨l', hl, hc⟩ := obind hc
        cases hc
      | imuState v s i =>
        obtain ⟨a, ha, hc⟩ := obind hc
        obtain ⟨l', hl, hc⟩ := obind hc
        obtain ⟨_, _, _, _, _, _, _, _, _, _, _, _, hc⟩ := asImu_some hc
        cases hc
      | _ => cases hc

theorem contents_lie_inv {k : ℕ} {h : Heap} {r : Ref} {c : LieCls} {n : ℕ} {M : Mat n n} {s : Option ℝ} {i : Id}
    {d : String} (hc : contents k h r = some (.lie c n M s i d)) :
    ∃ v, h[r]? = some (.lie c v s i d) ∧ arrAt h v = some (.mat n n M) ∧ n * n ≠ c.dof := by
  cases k with
  | zero => cases hc
  | succ k =>
    unfold contents at hc
    cases ho : h[r]? with
    | none => rw [ho] at hc; cases hc
    | some o =>
      rw [ho] at hc
      cases o with
      | vec v d s i =>
        obtain ⟨a, ha, hc⟩ := obind hc
        obtain ⟨l', hl, hc⟩ := obind hc
        cases hc
      | lie c v s i d =>
        obtain ⟨a, ha, hc⟩ := obind hc
        obtain ⟨l', hl, hc2⟩ := obind hc
        obtain ⟨rfl, hd⟩ := asSquare_some hl
        cases hc2
        exact ⟨v, rfl, ha, hd⟩
      | comp v s i =>
        obtain ⟨a, ha, hc⟩ := obind hc
        obtain ⟨l', hl, hc⟩ := obind hc
        cases hc
      | imuState v s i =>
        obtain ⟨a, ha, hc⟩ := obind hc
        obtain ⟨l', hl, hc⟩ := obind hc
        obtain ⟨_, _, _, _, _, _, _, _, _, _, _, _, hc⟩ := asImu_some hc
        cases hc
      | _ => cases hc

/-- `IMUState.__init__` on arrays of the right shapes. -/
theorem newImuState_spec (Exp : LieCls → Arr → Arr) {h : Heap} {nav bg ba : Ref} {n : ℕ} {M : Mat n n}
    {g a : List ℝ} (h0 : arrAt h nav = some (.mat n n M)) (hn : n * n ≠ 9) (h1 : arrAt h bg = some (.vec g))
    (h2 : arrAt h ba = some (.vec a)) (s : Option ℝ) (i : Id) (d : String) :
    newImuState Exp h nav bg ba s i d = .ok (h.length + 6, h ++
      [.lie .SE23 nav s (some "pose") d, .arr (.vec g), .vec (h.length + 1) g.length s (some "gyro_bias"),
        .arr (.vec a), .vec (h.length + 3) a.length s (some "accel_bias"),
        .list [h.length, h.length + 2, h.length + 4], .imuState (h.length + 5) s i]) := by
  unfold newImuState
  have hM : asSquare .SE23 (.mat n n M) = some ⟨n, M⟩ := asSquare_mat M hn
  rw [newLie_spec Exp h0 hM]
  show (newVec _ bg s _ >>= _) = _
  rw [newVec_spec (arrAt_grow h1)]
  show (newVec _ ba s _ >>= _) = _
  rw [newVec_spec (arrAt_grow (arrAt_grow h2))]
  simp [alloc, pure, Except.pure, bind, Except.bind]

theorem copy_spec (Exp : LieCls → Arr → Arr) : ∀ (k : ℕ) (h : Heap) (r : Ref) (t : STree),
    contents k h r = some t → CopySpec k h (copied t) (copyState Exp k h r)
  | 0, h, r, t, hc => by cases hc
  | k + 1, h, r, t, hc => by
    have hc0 := hc
    unfold contents at hc
    unfold copyState
    cases ho : h[r]? with
    | none => rw [ho] at hc; cases hc
    | some o =>
      rw [ho] at hc
      cases o with
      | vec v d s i =>
        obtain ⟨a, ha, hc⟩ := obind hc
        obtain ⟨l, hl, hc2⟩ := obind hc
        obtain ⟨rfl, rfl⟩ := asVec_some hl
        cases hc2
        have e : (do let (v', h1) ← copyArr h v; newVec h1 v' s i : Except Err (Ref × Heap))
            = .ok (h.length + 2, h ++ [.arr (.vec l), .arr (.vec l), .vec (h.length + 1) l.length s i]) := by
          rw [copyArr_spec ha]
          show newVec (h ++ [.arr (.vec l)]) h.length s i = _
          rw [newVec_spec (l := l) (by unfold arrAt; rw [get_last])]
          simp
        refine ⟨_, _, e, by omega, by simp, ?_, ?_⟩
        · intro o ho q hq
          simp only [List.mem_cons, List.not_mem_nil, or_false] at ho
          rcases ho with rfl | rfl | rfl
          · simp [Obj.refs] at hq
          · simp [Obj.refs] at hq
          · simp [Obj.refs] at hq; subst hq; simp
        · exact contents_vec k (get_off _ _ 2) (arrAt_off (i := 1) rfl)
      | lie c v s i d =>
        obtain ⟨a, ha, hc⟩ := obind hc
        obtain ⟨M, hM, hc⟩ := obind hc
        cases hc
        have e : (do let (v', h1) ← copyArr h v; newLie Exp c h1 v' s i d : Except Err (Ref × Heap))
            = .ok (h.length + 1, h ++ [.arr a, .lie c h.length s i d]) := by
          rw [copyArr_spec ha]
          show newLie Exp c (h ++ [.arr a]) h.length s i d = _
          rw [newLie_spec Exp (a := a) (by unfold arrAt; rw [get_last]) hM]
          simp
        refine ⟨_, _, e, by omega, by simp, ?_, ?_⟩
        · intro o ho q hq
          simp only [List.mem_cons, List.not_mem_nil, or_false] at ho
          rcases ho with rfl | rfl
          · simp [Obj.refs] at hq
          · simp [Obj.refs] at hq; subst hq; simp
        · exact contents_lie k (get_off _ _ 1) (arrAt_off (i := 0) rfl) hM
      | comp v s i =>
        obtain ⟨l, hl, hc⟩ := obind hc
        obtain ⟨ts, hts, hc⟩ := obind hc
        cases hc
        obtain ⟨rs, new, g1, g2, g3, g4⟩ := copyAll_spec Exp (copy_spec Exp k) l h ts hts
        have e : (do
              let l ← readList h v
              let (l', h1) ← copyAll (copyState Exp k) h l
              let (v', h2) := alloc h1 (.list l')
              return newComp h2 v' s i : Except Err (Ref × Heap))
            = .ok ((h ++ new).length + 1, h ++ (new ++ [.list rs, .comp (h ++ new).length s i])) := by
          rw [readList_of hl]
          show (copyAll (copyState Exp k) h l >>= _) = _
          rw [g1]
          show Except.ok (newComp (alloc (h ++ new) (.list rs)).2 (alloc (h ++ new) (.list rs)).1 s i) = _
          unfold newComp alloc
          simp only [List.length_append, List.length_singleton, List.append_assoc, List.singleton_append, Nat.add_assoc]
        refine ⟨_, _, e, ?_, by simp; omega, ?_, ?_⟩
        · simp only [List.length_append]; omega
        · refine g3.append ?_
          intro o ho q hq
          simp only [List.mem_cons, List.not_mem_nil, or_false] at ho
          rcases ho with rfl | rfl
          · have := g2 q (by simpa [Obj.refs] using hq)
            refine ⟨this.1, lt_of_lt_of_le this.2 ?_⟩
            simp
          · simp [Obj.refs] at hq; subst hq; simp
        · unfold contents
          rw [← List.append_assoc, get_off]
          show (listAt _ _ >>= _) = _
          rw [show (h ++ new).length = (h ++ new).length + 0 from rfl, listAt_off (i := 0) (a := rs) rfl]
          show (List.mapM (contents k _) rs >>= _) = _
          rw [mapM_mono g4 (fun a t _ ha => contents_grow ha)]
          simp [copied]
      | imuState v s i =>
        obtain ⟨l, hl, hc⟩ := obind hc
        obtain ⟨ts, hts, hc⟩ := obind hc
        obtain ⟨n, M, s0, i0, d, g, s1, i1, a, s2, i2, rfl, rfl⟩ := asImu_some hc
        -- the three elements
        match l, hts with
        | [], hts => cases hts
        | [_], hts =>
          rw [List.mapM_cons] at hts
          obtain ⟨_, _, hts⟩ := obind hts
          cases hts
        | [_, _], hts =>
          rw [List.mapM_cons] at hts
          obtain ⟨_, _, hts⟩ := obind hts
          obtain ⟨_, hm, hts⟩ := obind hts
          rw [List.mapM_cons] at hm
          obtain ⟨_, _, hm⟩ := obind hm
          cases hm
          cases hts
        | x0 :: x1 :: x2 :: rest, hts =>
          rw [List.mapM_cons] at hts
          obtain ⟨t0, e0, hts⟩ := obind hts
          obtain ⟨ts1, hm, hts⟩ := obind hts
          rw [List.mapM_cons] at hm
          obtain ⟨t1, e1, hm⟩ := obind hm
          obtain ⟨ts2, hm2, hm⟩ := obind hm
          rw [List.mapM_cons] at hm2
          obtain ⟨t2, e2, hm2⟩ := obind hm2
          obtain ⟨ts3, hm3, hm2⟩ := obind hm2
          cases hm2
          cases hm
          cases hts
          have hlie := contents_lie_inv e0
          obtain ⟨v0, a0, b0, c0⟩ := hlie
          obtain ⟨v1, a1, b1⟩ := contents_vec_inv e1
          obtain ⟨v2, a2, b2⟩ := contents_vec_inv e2
          have e : (do
                let l ← readList h v
                copyImuState Exp h l s i : Except Err (Ref × Heap))
              = .ok (h.length + 9, h ++ [.arr (.mat n n M), .arr (.vec g), .arr (.vec a),
                  .lie .SE23 h.length s (some "pose") d, .arr (.vec g),
                  .vec (h.length + 4) g.length s (some "gyro_bias"), .arr (.vec a),
                  .vec (h.length + 6) a.length s (some "accel_bias"),
                  .list [h.length + 3, h.length + 5, h.length + 7], .imuState (h.length + 8) s i]) := by
            rw [readList_of hl]
            show copyImuState Exp h (x0 :: x1 :: x2 :: rest) s i = _
            unfold copyImuState
            have w0 : valueOf h x0 = .ok v0 := by unfold valueOf; rw [a0]
            have w1 : valueOf (h ++ [.arr (.mat n n M)]) x1 = .ok v1 := by
              unfold valueOf; rw [get_grow a1]
            have w2 : valueOf (h ++ [.arr (.mat n n M)] ++ [.arr (.vec g)]) x2 = .ok v2 := by
              unfold valueOf; rw [get_grow (get_grow a2)]
            have w3 : dirOf (h ++ [.arr (.mat n n M)] ++ [.arr (.vec g)] ++ [.arr (.vec a)]) x0 = .ok d := by
              unfold dirOf; rw [get_grow (get_grow (get_grow a0))]
            show (valueOf h x0 >>= _) = _
            rw [w0]
            show (copyArr h v0 >>= _) = _
            rw [copyArr_spec b0]
            show (valueOf (h ++ [.arr (.mat n n M)]) x1 >>= _) = _
            rw [w1]
            show (copyArr (h ++ [.arr (.mat n n M)]) v1 >>= _) = _
            rw [copyArr_spec (arrAt_grow b1)]
            show (valueOf (h ++ [.arr (.mat n n M)] ++ [.arr (.vec g)]) x2 >>= _) = _
            rw [w2]
            show (copyArr (h ++ [.arr (.mat n n M)] ++ [.arr (.vec g)]) v2 >>= _) = _
            rw [copyArr_spec (arrAt_grow (arrAt_grow b2))]
            show (dirOf (h ++ [.arr (.mat n n M)] ++ [.arr (.vec g)] ++ [.arr (.vec a)]) x0 >>= _) = _
            rw [w3]
            show newImuState Exp _ _ _ _ s i d = _
            rw [newImuState_spec Exp (n := n) (M := M) (g := g) (a := a) ?_ c0 ?_ ?_]
            · simp
            · refine arrAt_grow (arrAt_grow ?_)
              unfold arrAt; rw [get_last]
            · refine arrAt_grow ?_
              unfold arrAt; rw [get_last]
            · unfold arrAt; rw [get_last]
          refine ⟨_, _, e, by omega, by simp, ?_, ?_⟩
          · intro o ho q hq
            simp only [List.mem_cons, List.not_mem_nil, or_false] at ho
            rcases ho with rfl | rfl | rfl | rfl | rfl | rfl | rfl | rfl | rfl | rfl <;>
              simp [Obj.refs] at hq <;> (try subst hq) <;> simp
            rcases hq with rfl | rfl | rfl <;> simp
          · unfold contents
            rw [get_off]
            show (listAt _ _ >>= _) = _
            rw [listAt_off (i := 8) rfl]
            cases k with
            | zero => cases e0
            | succ k =>
              show (List.mapM (contents (k + 1) _) [h.length + 3, h.length + 5, h.length + 7] >>= _) = _
              rw [List.mapM_cons, List.mapM_cons, List.mapM_cons, List.mapM_nil,
                contents_lie k (get_off _ _ 3) (arrAt_off (i := 0) rfl) (asSquare_mat M c0),
                contents_vec k (get_off _ _ 5) (arrAt_off (i := 4) rfl),
                contents_vec k (get_off _ _ 7) (arrAt_off (i := 6) rfl)]
              simp [asImu, copied, rebuilt]
      | _ => cases hc

end Verif.Heap
