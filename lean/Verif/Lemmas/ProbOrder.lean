import Verif.Props.Assembly
import Verif.Props.Mixture

/-!
The order in which residuals and variables are added to a `Problem` does not matter: lemmas.
-/

set_option linter.unusedVariables false
set_option linter.unusedSectionVars false

namespace Verif

open Matrix

variable {K S : Type} [DecidableEq K]

/-! ### Correspondence of columns -/

/-- The columns of two problems correspond: `σ` maps the columns of each variable in one to its columns in the other, in order. -/
structure Corr {n n' : ℕ} (vs vs' : List (K × Slice)) (σ : Fin n ≃ Fin n') : Prop where
  has : ∀ k s, vs.lookup k = some s → ∃ s', vs'.lookup k = some s'
  has' : ∀ k s', vs'.lookup k = some s' → ∃ s, vs.lookup k = some s
  fits : ∀ k s, vs.lookup k = some s → s.start ≤ s.stop ∧ s.stop ≤ n
  fits' : ∀ k s', vs'.lookup k = some s' → s'.start ≤ s'.stop ∧ s'.stop ≤ n'
  len : ∀ k s s', vs.lookup k = some s → vs'.lookup k = some s' → s'.stop - s'.start = s.stop - s.start
  pos : ∀ k s s', vs.lookup k = some s → vs'.lookup k = some s' → ∀ c : Fin n,
    (s.start ≤ c.val ∧ c.val < s.stop ↔ s'.start ≤ (σ c).val ∧ (σ c).val < s'.stop) ∧
    (s.start ≤ c.val → c.val < s.stop → (σ c).val - s'.start = c.val - s.start)

theorem Corr.refl {n : ℕ} {vs : List (K × Slice)} (h : ∀ k s, vs.lookup k = some s → s.start ≤ s.stop ∧ s.stop ≤ n) :
    Corr vs vs (Equiv.refl (Fin n)) where
  has k s h := ⟨s, h⟩
  has' k s h := ⟨s, h⟩
  fits := h
  fits' := h
  len k s s' h1 h2 := by rw [h1] at h2; cases h2; rfl
  pos k s s' h1 h2 c := by rw [h1] at h2; cases h2; exact ⟨Iff.rfl, fun _ _ => rfl⟩

theorem slen {s : Slice} {n ℓ : ℕ} (h1 : s.stop = s.start + ℓ) (h2 : s.stop ≤ n) : s.len n = ℓ := by
  unfold Slice.len; omega

theorem slen' {s : Slice} {n : ℕ} (h1 : s.start ≤ s.stop) (h2 : s.stop ≤ n) : s.len n = s.stop - s.start := by
  unfold Slice.len; omega

/-- Corresponding rows of two stacked Jacobians. -/
structure RowsRel {n n' : ℕ} (ℓ : ℕ) (s s' : Slice) (σ : Fin n ≃ Fin n') (H H' : DMat) : Prop where
  stop : s.stop = s.start + ℓ
  stop' : s'.stop = s'.start + ℓ
  rows : s.stop ≤ H.rows
  rows' : s'.stop ≤ H'.rows
  cols : H.cols = n
  cols' : H'.cols = n'
  get : ∀ a, a < ℓ → ∀ c : Fin n, H'.get (s'.start + a) (σ c) = H.get (s.start + a) c

theorem placeJacs_rel {n n' ℓ : ℕ} {vs vs' : List (K × Slice)} {σ : Fin n ≃ Fin n'} (hc : Corr vs vs' σ) {s s' : Slice} {w : ℝ} :
    ∀ {ks : List K} {js : List (Option DMat)} {H G H' : DMat}, RowsRel ℓ s s' σ H H' → placeJacs vs s w ks js H = .ok G →
      ∃ G', placeJacs vs' s' w ks js H' = .ok G' ∧ RowsRel ℓ s s' σ G G'
  | [], js, H, G, H', hr, h => by
    cases h
    exact ⟨H', by unfold placeJacs; rfl, hr⟩
  | k :: ks, [], H, G, H', hr, h => by simp [placeJacs] at h
  | k :: ks, none :: js, H, G, H', hr, h => placeJacs_rel hc (ks := ks) (js := js) hr h
  | k :: ks, some J :: js, H, G, H', hr, h => by
    unfold placeJacs at h
    obtain ⟨cs, h1, h⟩ := bind_ok h
    obtain ⟨H1, h2, h⟩ := bind_ok h
    have l1 := dictGet_ok.1 h1
    obtain ⟨cs', l2⟩ := hc.has k cs l1
    obtain ⟨f1, f2⟩ := hc.fits k cs l1
    obtain ⟨f3, f4⟩ := hc.fits' k cs' l2
    have f5 := hc.len k cs cs' l1 l2
    unfold DMat.setBlock at h2
    split at h2
    · rename_i hsh
      rw [slen hr.stop hr.rows, hr.cols, slen' f1 f2] at hsh
      have hsh' : ((J.scale w).rows = s'.len H'.rows ∨ (J.scale w).rows = 1) ∧
          ((J.scale w).cols = cs'.len H'.cols ∨ (J.scale w).cols = 1) := by
        rw [slen hr.stop' hr.rows', hr.cols', slen' f3 f4, f5]
        exact hsh
      cases h2
      obtain ⟨G', g1, g2⟩ := placeJacs_rel hc (ks := ks) (js := js) (ℓ := ℓ) (s := s) (s' := s') (w := w)
        (H := ⟨H.rows, H.cols, fun i j =>
          if s.start ≤ i ∧ i < s.stop ∧ cs.start ≤ j ∧ j < cs.stop then
            (J.scale w).get (if (J.scale w).rows = 1 then 0 else i - s.start) (if (J.scale w).cols = 1 then 0 else j - cs.start)
          else H.get i j⟩)
        (H' := ⟨H'.rows, H'.cols, fun i j =>
          if s'.start ≤ i ∧ i < s'.stop ∧ cs'.start ≤ j ∧ j < cs'.stop then
            (J.scale w).get (if (J.scale w).rows = 1 then 0 else i - s'.start) (if (J.scale w).cols = 1 then 0 else j - cs'.start)
          else H'.get i j⟩) ⟨hr.stop, hr.stop', hr.rows, hr.rows', hr.cols, hr.cols', by
          intro a ha c
          obtain ⟨p1, p2⟩ := hc.pos k cs cs' l1 l2 c
          have e1 := hr.stop
          have e2 := hr.stop'
          show (if _ then _ else _) = (if _ then _ else _)
          by_cases hin : cs.start ≤ c.val ∧ c.val < cs.stop
          · have hin' := p1.1 hin
            rw [if_pos (show s'.start ≤ s'.start + a ∧ s'.start + a < s'.stop ∧ cs'.start ≤ (σ c).val ∧ (σ c).val < cs'.stop by omega),
              if_pos (show s.start ≤ s.start + a ∧ s.start + a < s.stop ∧ cs.start ≤ c.val ∧ c.val < cs.stop by omega), p2 hin.1 hin.2,
              Nat.add_sub_cancel_left, Nat.add_sub_cancel_left]
          · rw [if_neg (fun q => hin (p1.2 ⟨q.2.2.1, q.2.2.2⟩)), if_neg (fun q => hin ⟨q.2.2.1, q.2.2.2⟩)]
            exact hr.get a ha c⟩ h
      refine ⟨G', ?_, g2⟩
      unfold placeJacs
      rw [dictGet_ok.2 l2]
      show (H'.setBlock s' cs' (J.scale w) >>= _) = _
      have e : H'.setBlock s' cs' (J.scale w) = .ok ⟨H'.rows, H'.cols, fun i j =>
          if s'.start ≤ i ∧ i < s'.stop ∧ cs'.start ≤ j ∧ j < cs'.stop then
            (J.scale w).get (if (J.scale w).rows = 1 then 0 else i - s'.start) (if (J.scale w).cols = 1 then 0 else j - cs'.start)
          else H'.get i j⟩ := by
        unfold DMat.setBlock
        rw [if_pos hsh']
      rw [e]
      exact g1
    · cases h2

theorem setSeg_rel {n n' ℓ : ℕ} {e e' e1 : ℕ → ℝ} {s s' : Slice} {v : List ℝ} (h1 : s.stop = s.start + ℓ) (h2 : s.stop ≤ n)
    (h1' : s'.stop = s'.start + ℓ) (h2' : s'.stop ≤ n') (h : setSeg n e s v = .ok e1) :
    ∃ e1', setSeg n' e' s' v = .ok e1' ∧ ∀ a, a < ℓ → e1' (s'.start + a) = e1 (s.start + a) := by
  unfold setSeg at h ⊢
  rw [slen h1 h2] at h
  rw [slen h1' h2']
  split at h
  · rename_i hv
    rw [if_pos hv]
    cases h
    refine ⟨_, rfl, fun a ha => ?_⟩
    show (if _ then _ else _) = (if _ then _ else _)
    rw [if_pos (show s'.start ≤ s'.start + a ∧ s'.start + a < s'.stop by omega),
      if_pos (show s.start ≤ s.start + a ∧ s.start + a < s.stop by omega), Nat.add_sub_cancel_left, Nat.add_sub_cancel_left]
  · cases h

/-! ### The contribution of one residual -/

/-- The rows that one residual contributes, on their own: `ℓ` is the number of rows reserved for it. -/
noncomputable def localAsm (const : List K) (vs : List (K × Slice)) (n : ℕ) (vars : List (K × S)) (p : Residual K S × Loss) (ℓ : ℕ) :
    Except Err Asm := do
  let xs ← lookupAll vars p.1.keys
  let err ← p.1.error xs
  let jacs ← p.1.jacobians xs (p.1.keys.map fun k => !(const.contains k))
  let e ← setSeg ℓ (fun _ => 0) ⟨0, ℓ⟩ (err.map (Real.sqrt (p.2.weight (listNorm err)) * ·))
  let H ← placeJacs vs ⟨0, ℓ⟩ (Real.sqrt (p.2.weight (listNorm err))) p.1.keys jacs (DMat.zeros ℓ n)
  return ⟨e, H, p.2.loss (listNorm err)⟩

/-- Two residual contributions with corresponding columns. -/
structure LocRel {n n' : ℕ} (ℓ : ℕ) (σ : Fin n ≃ Fin n') (a a' : Asm) : Prop where
  e : ∀ q, q < ℓ → a'.e q = a.e q
  H : ∀ q, q < ℓ → ∀ c : Fin n, a'.H.get q (σ c) = a.H.get q c
  cost : a'.cost = a.cost

theorem localAsm_rel {n n' ℓ : ℕ} {const const' : List K} (hcst : ∀ k, k ∈ const ↔ k ∈ const') {vs vs' : List (K × Slice)}
    {σ : Fin n ≃ Fin n'} (hc : Corr vs vs' σ) {vars vars' : List (K × S)}
    (hv : ∀ ks, lookupAll vars' ks = lookupAll vars ks) {p : Residual K S × Loss} {a : Asm}
    (h : localAsm const vs n vars p ℓ = .ok a) : ∃ a', localAsm const' vs' n' vars' p ℓ = .ok a' ∧ LocRel ℓ σ a a' := by
  unfold localAsm at h ⊢
  obtain ⟨xs, h1, h⟩ := bind_ok h
  obtain ⟨err, h2, h⟩ := bind_ok h
  obtain ⟨jacs, h3, h⟩ := bind_ok h
  obtain ⟨e, h4, h⟩ := bind_ok h
  obtain ⟨H, h5, h⟩ := bind_ok h
  cases h
  have hfl : (p.1.keys.map fun k => !(const'.contains k)) = p.1.keys.map fun k => !(const.contains k) := by
    refine List.map_congr_left fun k _ => ?_
    have : const'.contains k = const.contains k := by
      rw [Bool.eq_iff_iff]; simp [hcst k]
    rw [this]
  obtain ⟨H', g1, g2⟩ := placeJacs_rel hc (ℓ := ℓ) (s := ⟨0, ℓ⟩) (s' := ⟨0, ℓ⟩) (H' := DMat.zeros ℓ n')
    ⟨by simp, by simp, le_refl _, le_refl _, rfl, rfl, fun _ _ _ => rfl⟩ h5
  refine ⟨⟨e, H', p.2.loss (listNorm err)⟩, ?_, fun _ _ => rfl, fun q hq c => ?_, rfl⟩
  · simp only [hv, h1, ok_bindE, h2, hfl, h3, h4, g1]
    rfl
  · have := g2.get q hq c
    simpa using this

/-- Entries of `HᵀH`, of `Hᵀe` from rows. -/
def gram (H : ℕ → ℕ → ℝ) (N : ℕ) (c d : ℕ) : ℝ := ∑ q ∈ Finset.range N, H q c * H q d

def grad (H : ℕ → ℕ → ℝ) (e : ℕ → ℝ) (N : ℕ) (c : ℕ) : ℝ := ∑ q ∈ Finset.range N, H q c * e q

/-- The contributions of a list of residuals. -/
inductive Locals (const : List K) (vs : List (K × Slice)) (n : ℕ) (vars : List (K × S)) :
    List ((Residual K S × Loss) × ℕ) → List (Asm × ℕ) → Prop where
  | nil : Locals const vs n vars [] []
  | cons {p ℓ a l as} : localAsm const vs n vars p ℓ = .ok a → Locals const vs n vars l as →
      Locals const vs n vars ((p, ℓ) :: l) ((a, ℓ) :: as)

/-- The rows base, base+1, ... are reserved for the residuals `l`, one after the other. -/
def Reserved (P : Prob K S) : ℕ → ℕ → List ((Residual K S × Loss) × ℕ) → Prop
  | _, base, [] => base = P.sizeErr
  | i, base, (_, ℓ) :: l => P.resSlices[i]? = some ⟨base, base + ℓ⟩ ∧ Reserved P (i + 1) (base + ℓ) l

theorem Reserved.le {P : Prob K S} : ∀ {l : List ((Residual K S × Loss) × ℕ)} {i base : ℕ}, Reserved P i base l → base ≤ P.sizeErr
  | [], i, base, h => by unfold Reserved at h; omega
  | (p, ℓ) :: l, i, base, h => by have := Reserved.le h.2; omega

theorem pyGet_at {α : Type} {l : List α} {k : ℕ} {x : α} (h : l[k]? = some x) : pyGet l k = .ok x := by
  unfold pyGet; rw [h]

theorem gram_split (H : ℕ → ℕ → ℝ) (b ℓ c d : ℕ) :
    gram H (b + ℓ) c d = gram H b c d + gram (fun q => H (b + q)) ℓ c d := Finset.sum_range_add _ _ _

theorem grad_split (H : ℕ → ℕ → ℝ) (e : ℕ → ℝ) (b ℓ c : ℕ) :
    grad H e (b + ℓ) c = grad H e b c + grad (fun q => H (b + q)) (fun q => e (b + q)) ℓ c := Finset.sum_range_add _ _ _

theorem gram_congr {H H' : ℕ → ℕ → ℝ} {N c d c' d' : ℕ} (h : ∀ q, q < N → H q c = H' q c' ∧ H q d = H' q d') :
    gram H N c d = gram H' N c' d' :=
  Finset.sum_congr rfl fun q hq => by rw [(h q (Finset.mem_range.1 hq)).1, (h q (Finset.mem_range.1 hq)).2]

theorem grad_congr {H H' : ℕ → ℕ → ℝ} {e e' : ℕ → ℝ} {N c c' : ℕ} (h : ∀ q, q < N → H q c = H' q c' ∧ e q = e' q) :
    grad H e N c = grad H' e' N c' :=
  Finset.sum_congr rfl fun q hq => by rw [(h q (Finset.mem_range.1 hq)).1, (h q (Finset.mem_range.1 hq)).2]

/-- One step of the assembly, from the contribution of its residual. -/
theorem asm_step {P : Prob K S} {vars : List (K × S)} {n : ℕ}
    (hf : ∀ k s, P.varSlices.lookup k = some s → s.start ≤ s.stop ∧ s.stop ≤ n)
    {p : Residual K S × Loss} {ℓ i base : ℕ} {l : List ((Residual K S × Loss) × ℕ)} (hr : Reserved P i base ((p, ℓ) :: l))
    {a x : Asm} (hrows : a.H.rows = P.sizeErr) (hcols : a.H.cols = n)
    (hz : ∀ q, base ≤ q → ∀ c, a.H.get q c = 0)
    (hx : localAsm P.constKeys P.varSlices n vars p ℓ = .ok x) :
    ∃ a1 : Asm, (∀ rest, asmLoop P vars i (p :: rest) a = asmLoop P vars (i + 1) rest a1) ∧ a1.H.rows = P.sizeErr ∧ a1.H.cols = n ∧
      (∀ q, base + ℓ ≤ q → ∀ c, a1.H.get q c = 0) ∧ (∀ q, q < base → a1.e q = a.e q ∧ ∀ c, a1.H.get q c = a.H.get q c) ∧
      (∀ q, q < ℓ → a1.e (base + q) = x.e q ∧ ∀ c, c < n → a1.H.get (base + q) c = x.H.get q c) ∧ a1.cost = a.cost + x.cost := by
  have hle : base + ℓ ≤ P.sizeErr := Reserved.le hr.2
  unfold localAsm at hx
  obtain ⟨xs, h1, hx⟩ := bind_ok hx
  obtain ⟨err, h2, hx⟩ := bind_ok hx
  obtain ⟨jacs, h3, hx⟩ := bind_ok hx
  obtain ⟨e, h4, hx⟩ := bind_ok hx
  obtain ⟨H, h5, hx⟩ := bind_ok hx
  cases hx
  obtain ⟨e1, g1, g2⟩ := setSeg_rel (n' := P.sizeErr) (s' := ⟨base, base + ℓ⟩) (e' := a.e) (ℓ := ℓ) (by simp) (le_refl _) rfl hle h4
  obtain ⟨H1, g3, g4⟩ := placeJacs_rel (Corr.refl hf) (ℓ := ℓ) (s := ⟨0, ℓ⟩) (s' := ⟨base, base + ℓ⟩) (H' := a.H)
    ⟨by simp, rfl, le_refl _, by rw [hrows]; exact hle, rfl, hcols, fun q hq c => hz _ (Nat.le_add_right _ _) _⟩ h5
  obtain ⟨k1, k2, k3, -⟩ := placeJacs_frame g3
  refine ⟨⟨e1, H1, a.cost + p.2.loss (listNorm err)⟩, fun rest => ?_, k1.trans hrows, k2.trans hcols, fun q hq c => ?_, fun q hq => ?_,
    fun q hq => ?_, rfl⟩
  · show (lookupAll vars p.1.keys >>= _) = _
    simp only [h1, h2, h3, ok_bindE, pyGet_at hr.1, g1, g3]
  · show H1.get q c = 0
    rw [k3 q c (fun z => by simp only at z; omega)]
    exact hz q (by omega) c
  · refine ⟨(setSeg_ok g1).1 q (fun z => by simp only at z; omega), fun c => k3 q c (fun z => by simp only at z; omega)⟩
  · refine ⟨?_, fun c hc => ?_⟩
    · have := g2 q hq
      simpa using this
    · have := g4.get q hq ⟨c, hc⟩
      simpa using this

theorem asmLoop_adds {P : Prob K S} {vars : List (K × S)} {n : ℕ}
    (hf : ∀ k s, P.varSlices.lookup k = some s → s.start ≤ s.stop ∧ s.stop ≤ n) :
    ∀ {l : List ((Residual K S × Loss) × ℕ)} {as : List (Asm × ℕ)} {i base : ℕ} {a : Asm},
      Locals P.constKeys P.varSlices n vars l as → Reserved P i base l → a.H.rows = P.sizeErr → a.H.cols = n →
      (∀ q, base ≤ q → ∀ c, a.H.get q c = 0) →
      ∃ a', asmLoop P vars i (l.map Prod.fst) a = .ok a' ∧
        (∀ c d, c < n → d < n → gram a'.H.get P.sizeErr c d = gram a.H.get base c d + (as.map fun x => gram x.1.H.get x.2 c d).sum) ∧
        (∀ c, c < n → grad a'.H.get a'.e P.sizeErr c = grad a.H.get a.e base c + (as.map fun x => grad x.1.H.get x.1.e x.2 c).sum) ∧
        a'.cost = a.cost + (as.map fun x => x.1.cost).sum
  | _, _, i, base, a, .nil, hr, hrows, hcols, hz => by
    have : base = P.sizeErr := hr
    exact ⟨a, rfl, by simp [this], by simp [this], by simp⟩
  | _, _, i, base, a, .cons (p := p) (ℓ := ℓ) (a := x) (l := l) (as := as) hx hl, hr, hrows, hcols, hz => by
    obtain ⟨a1, s1, s2, s3, s4, s5, s6, s7⟩ := asm_step hf hr hrows hcols hz hx
    obtain ⟨a', t1, t2, t3, t4⟩ := asmLoop_adds hf hl hr.2 s2 s3 s4
    refine ⟨a', ?_, fun c d hc hd => ?_, fun c hc => ?_, ?_⟩
    · rw [List.map_cons]; exact (s1 _).trans t1
    · rw [t2 c d hc hd, gram_split, List.map_cons, List.sum_cons, ← add_assoc]
      congr 2
      · exact gram_congr fun q hq => ⟨(s5 q hq).2 c, (s5 q hq).2 d⟩
      · exact gram_congr fun q hq => ⟨(s6 q hq).2 c hc, (s6 q hq).2 d hd⟩
    · rw [t3 c hc, grad_split, List.map_cons, List.sum_cons, ← add_assoc]
      congr 2
      · exact grad_congr fun q hq => ⟨(s5 q hq).2 c, (s5 q hq).1⟩
      · exact grad_congr fun q hq => ⟨(s6 q hq).2 c hc, (s6 q hq).1⟩
    · rw [t4, s7, List.map_cons, List.sum_cons, add_assoc]

/-- The contributions exist if the assembly succeeds. -/
theorem asmLoop_locals {P : Prob K S} {vars : List (K × S)} {n : ℕ}
    (hf : ∀ k s, P.varSlices.lookup k = some s → s.start ≤ s.stop ∧ s.stop ≤ n) :
    ∀ {l : List ((Residual K S × Loss) × ℕ)} {i base : ℕ} {a a' : Asm}, Reserved P i base l → a.H.rows = P.sizeErr → a.H.cols = n →
      (∀ q, base ≤ q → ∀ c, a.H.get q c = 0) → asmLoop P vars i (l.map Prod.fst) a = .ok a' →
      ∃ as, Locals P.constKeys P.varSlices n vars l as
  | [], i, base, a, a', hr, hrows, hcols, hz, h => ⟨[], .nil⟩
  | (p, ℓ) :: l, i, base, a, a', hr, hrows, hcols, hz, h => by
    have hle : base + ℓ ≤ P.sizeErr := Reserved.le hr.2
    have hx : ∃ x, localAsm P.constKeys P.varSlices n vars p ℓ = .ok x := by
      rw [List.map_cons] at h
      obtain ⟨r, ls⟩ := p
      unfold asmLoop at h
      obtain ⟨xs, h1, h⟩ := bind_ok h
      obtain ⟨err, h2, h⟩ := bind_ok h
      obtain ⟨jacs, h3, h⟩ := bind_ok h
      obtain ⟨s, h4, h⟩ := bind_ok h
      obtain ⟨e, h5, h⟩ := bind_ok h
      obtain ⟨H, h6, h⟩ := bind_ok h
      rw [pyGet_at hr.1] at h4
      cases h4
      obtain ⟨e1, g1, g2⟩ := setSeg_rel (n' := ℓ) (s' := ⟨0, ℓ⟩) (e' := fun _ => 0) (ℓ := ℓ) rfl hle (by simp) (le_refl _) h5
      obtain ⟨H1, g3, g4⟩ := placeJacs_rel (Corr.refl hf) (ℓ := ℓ) (s := ⟨base, base + ℓ⟩) (s' := ⟨0, ℓ⟩) (H' := DMat.zeros ℓ n)
        ⟨rfl, by simp, by rw [hrows]; exact hle, le_refl _, hcols, rfl, fun q hq c => (hz _ (Nat.le_add_right _ _) _).symm⟩ h6
      refine ⟨⟨e1, H1, ls.loss (listNorm err)⟩, ?_⟩
      unfold localAsm
      simp only [h1, h2, h3, ok_bindE, g1, g3]
      rfl
    obtain ⟨x, hx⟩ := hx
    obtain ⟨a1, s1, s2, s3, s4, s5, s6, s7⟩ := asm_step hf hr hrows hcols hz hx
    rw [List.map_cons] at h
    obtain ⟨as, has⟩ := asmLoop_locals hf hr.2 s2 s3 s4 ((s1 _).symm.trans h)
    exact ⟨(x, ℓ) :: as, .cons hx has⟩

end Verif
