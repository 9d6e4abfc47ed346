import Verif.Lemmas.RobustAlg
import Verif.Lemmas.ProbOrder
import Verif.Props.Order

/-!
Linear problems with robust losses: the normal equations at every point (for C137).
-/

set_option linter.unusedVariables false
set_option linter.unusedSectionVars false
set_option linter.unusedSimpArgs false

namespace Verif

open Matrix

variable {K S : Type} [DecidableEq K]

/-! ### Scaling the rows of one residual -/

theorem placeJacs_scale {vs : List (K × Slice)} {s : Slice} {w : ℝ} : ∀ {ks : List K} {js : List (Option DMat)} {H G H' : DMat},
    placeJacs vs s 1 ks js H = .ok G → H'.rows = H.rows → H'.cols = H.cols → (∀ q c, H'.get q c = w * H.get q c) →
      ∃ G', placeJacs vs s w ks js H' = .ok G' ∧ G'.rows = G.rows ∧ G'.cols = G.cols ∧ ∀ q c, G'.get q c = w * G.get q c
  | [], js, H, G, H', h, hr, hc, hg => by
    cases h
    exact ⟨H', by unfold placeJacs; rfl, hr, hc, hg⟩
  | k :: ks, [], H, G, H', h, hr, hc, hg => by simp [placeJacs] at h
  | k :: ks, none :: js, H, G, H', h, hr, hc, hg => placeJacs_scale (ks := ks) (js := js) h hr hc hg
  | k :: ks, some J :: js, H, G, H', h, hr, hc, hg => by
    unfold placeJacs at h
    obtain ⟨cs, h1, h⟩ := bind_ok h
    obtain ⟨H1, h2, h⟩ := bind_ok h
    unfold DMat.setBlock at h2
    split at h2
    · rename_i hsh
      cases h2
      obtain ⟨G', g1, g2⟩ := placeJacs_scale (ks := ks) (js := js) (w := w) (H' := ⟨H'.rows, H'.cols, fun i j =>
          if s.start ≤ i ∧ i < s.stop ∧ cs.start ≤ j ∧ j < cs.stop then
            (J.scale w).get (if (J.scale w).rows = 1 then 0 else i - s.start) (if (J.scale w).cols = 1 then 0 else j - cs.start)
          else H'.get i j⟩) h hr hc (by
            intro q c
            show (if _ then _ else _) = w * (if _ then _ else _)
            split
            · show w * J.get _ _ = w * (1 * J.get _ _)
              rw [one_mul]
              rfl
            · exact hg q c)
      refine ⟨G', ?_, g2⟩
      unfold placeJacs
      rw [h1]
      show (H'.setBlock s cs (J.scale w) >>= _) = _
      have e : H'.setBlock s cs (J.scale w) = .ok ⟨H'.rows, H'.cols, fun i j =>
          if s.start ≤ i ∧ i < s.stop ∧ cs.start ≤ j ∧ j < cs.stop then
            (J.scale w).get (if (J.scale w).rows = 1 then 0 else i - s.start) (if (J.scale w).cols = 1 then 0 else j - cs.start)
          else H'.get i j⟩ := by
        unfold DMat.setBlock
        rw [if_pos (by rw [hr, hc]; exact hsh)]
      rw [e]
      exact g1
    · cases h2

theorem setSeg_whole {ℓ : ℕ} {v : List ℝ} (hv : v.length = ℓ) :
    ∃ e, setSeg ℓ (fun _ => 0) ⟨0, ℓ⟩ v = .ok e ∧ ∀ q, q < ℓ → e q = v.getD q 0 := by
  unfold setSeg
  rw [if_pos (Or.inl (by rw [hv]; simp [Slice.len]))]
  refine ⟨_, rfl, fun q hq => ?_⟩
  show (if _ then _ else _) = _
  rw [if_pos ⟨Nat.zero_le _, hq⟩]
  by_cases h1 : v.length = 1
  · rw [if_pos h1, show q = 0 by omega]
  · rw [if_neg h1, Nat.sub_zero]

/-- The rows of a residual with any loss, from the rows with the L2 loss. -/
theorem local_scale {const : List K} {vs : List (K × Slice)} {n ℓ : ℕ} {vars : List (K × S)} {r : Residual K S} {ls : Loss} {a : Asm}
    (h : localAsm const vs n vars (r, l2Loss) ℓ = .ok a)
    (hlen : ∀ xs err, lookupAll vars r.keys = .ok xs → r.error xs = .ok err → err.length = ℓ) :
    ∃ (err : List ℝ) (a' : Asm), err.length = ℓ ∧ (∀ q, q < ℓ → a.e q = err.getD q 0) ∧ localAsm const vs n vars (r, ls) ℓ = .ok a' ∧
      (∀ q, q < ℓ → a'.e q = Real.sqrt (ls.weight (listNorm err)) * a.e q) ∧
      ∀ q c, a'.H.get q c = Real.sqrt (ls.weight (listNorm err)) * a.H.get q c := by
  unfold localAsm at h
  obtain ⟨xs, h1, h⟩ := bind_ok h
  obtain ⟨err, h2, h⟩ := bind_ok h
  obtain ⟨jacs, h3, h⟩ := bind_ok h
  obtain ⟨e, h4, h⟩ := bind_ok h
  obtain ⟨H, h5, h⟩ := bind_ok h
  cases h
  have h1 : lookupAll vars r.keys = .ok xs := h1
  have h2 : r.error xs = .ok err := h2
  have h3 : r.jacobians xs (r.keys.map fun k => !(const.contains k)) = .ok jacs := h3
  have hl := hlen xs err h1 h2
  have hw : Real.sqrt (l2Loss.weight (listNorm err)) = 1 := Real.sqrt_one
  rw [hw] at h4 h5
  obtain ⟨e1, f1, f2⟩ := setSeg_whole (ℓ := ℓ) (v := err.map (1 * ·)) (by simpa using hl)
  rw [f1] at h4
  cases h4
  obtain ⟨e2, g1, g2⟩ := setSeg_whole (ℓ := ℓ) (v := err.map (Real.sqrt (ls.weight (listNorm err)) * ·)) (by simpa using hl)
  obtain ⟨H', k1, -, -, k2⟩ := placeJacs_scale (w := Real.sqrt (ls.weight (listNorm err))) (H' := DMat.zeros ℓ n) h5 rfl rfl
    (fun q c => (mul_zero _).symm)
  have hmap : ∀ (t : ℝ) q, q < ℓ → (err.map (t * ·)).getD q 0 = t * err.getD q 0 := by
    intro t q hq
    rw [List.getD_eq_getElem?_getD, List.getD_eq_getElem?_getD, List.getElem?_map, List.getElem?_eq_getElem (by omega)]
    rfl
  refine ⟨err, ⟨e2, H', ls.loss (listNorm err)⟩, hl, fun q hq => ?_, ?_, fun q hq => ?_, k2⟩
  · show e q = _
    rw [f2 q hq, hmap 1 q hq, one_mul]
  · unfold localAsm
    simp only [h1, h2, h3, ok_bindE, g1, k1]
    rfl
  · show e2 q = _ * e q
    rw [g2 q hq, f2 q hq, hmap _ q hq, hmap 1 q hq, one_mul]

theorem listNorm_fin {err : List ℝ} {ℓ : ℕ} (h : err.length = ℓ) {v : Vec ℓ} (hv : ∀ q : Fin ℓ, v q = err.getD q 0) :
    listNorm err = vecNorm v := by
  subst h
  unfold listNorm vecNorm dotProduct
  congr 1
  rw [← Fin.sum_univ_getElem]
  simp only [List.getElem_map]
  have : ∀ (k : ℕ) (hk : k = err.length) (f : Fin k → ℝ) (g : Fin err.length → ℝ), (∀ (i : ℕ) (h1 : i < k) (h2 : i < err.length), f ⟨i, h1⟩ = g ⟨i, h2⟩) →
      ∑ i, f i = ∑ i, g i := by
    intro k hk f g hfg
    subst hk
    exact Finset.sum_congr rfl fun i _ => hfg i.1 i.2 i.2
  refine this _ (by simp) _ _ fun i h1 h2 => ?_
  rw [hv ⟨i, h2⟩, List.getD_eq_getElem?_getD, List.getElem?_eq_getElem h2]
  rfl

/-! ### Pieces of a problem -/

/-- The residual `rl.1` with loss `rl.2`, moved by `δ` from `v0`, is the piece `p`. -/
structure IsPiece (const : List K) (vs : List (K × Slice)) (n : ℕ) (v0 : List (K × List ℝ)) (rl : Residual K (List ℝ) × Loss)
    (p : Piece n) : Prop where
  loss : p.loss = rl.2
  len : ∀ (δ : Vec n) xs err, lookupAll (moveAll const vs δ v0) rl.1.keys = .ok xs → rl.1.error xs = .ok err → err.length = p.m
  rows : ∀ δ : Vec n, ∃ a, localAsm const vs n (moveAll const vs δ v0) (rl.1, l2Loss) p.m = .ok a ∧
    (∀ q : Fin p.m, a.e q = p.res δ q) ∧ ∀ (q : Fin p.m) (c : Fin n), a.H.get q c = p.H q c

theorem IsPiece.scaled {const : List K} {vs : List (K × Slice)} {n : ℕ} {v0 : List (K × List ℝ)} {rl : Residual K (List ℝ) × Loss}
    {p : Piece n} (h : IsPiece const vs n v0 rl p) (hw : ∀ x, 0 ≤ rl.2.weight x) (δ : Vec n) :
    ∃ a, localAsm const vs n (moveAll const vs δ v0) rl p.m = .ok a ∧
      (∀ c d : Fin n, gram a.H.get p.m c d = p.A δ c d) ∧ ∀ c : Fin n, grad a.H.get a.e p.m c = p.b δ c := by
  obtain ⟨a, h1, h2, h3⟩ := h.rows δ
  obtain ⟨err, a', k1, k2, k3, k4, k5⟩ := local_scale (ls := rl.2) h1 (h.len δ)
  have hn : listNorm err = vecNorm (p.res δ) := listNorm_fin k1 fun q => by rw [← h2 q, k2 q q.2]
  have hsq : Real.sqrt (rl.2.weight (listNorm err)) * Real.sqrt (rl.2.weight (listNorm err)) = p.w δ := by
    rw [Real.mul_self_sqrt (hw _), hn, Piece.w, h.loss]
  refine ⟨a', k3, fun c d => ?_, fun c => ?_⟩
  · unfold gram Piece.A
    rw [Matrix.smul_apply, mul_apply, smul_eq_mul, Finset.sum_range, Finset.mul_sum]
    refine Finset.sum_congr rfl fun q _ => ?_
    rw [k5, k5, h3 q c, h3 q d, ← hsq, transpose_apply]
    ring
  · unfold grad Piece.b
    rw [Pi.smul_apply, smul_eq_mul, Finset.sum_range]
    show _ = _ * ∑ q, p.H q c * p.res δ q
    rw [Finset.mul_sum]
    refine Finset.sum_congr rfl fun q _ => ?_
    rw [k5, k4 q q.2, h3 q c, h2 q, ← hsq]
    ring

/-- The normal equations of a problem at the point `δ`, from its pieces. -/
theorem pieces_linearize {Q Q1 : Prob K (List ℝ)} (h : Q.started vecVarOps = .ok Q1) (hf : Q.varSlices = [])
    (hn : (Q.varsInit.map Prod.fst).Nodup) (hlen : Q.losses.length = Q.residuals.length) {ps : List (Piece Q1.sizeState)}
    (hp : List.Forall₂ (fun rl p => IsPiece Q.constKeys Q1.varSlices Q1.sizeState Q.varsInit rl p) (Q.residuals.zip Q.losses) ps)
    (hw : ∀ rl ∈ Q.residuals.zip Q.losses, ∀ x, 0 ≤ rl.2.weight x) (δ : Vec Q1.sizeState) :
    ∃ (m : ℕ) (e : Vec m) (H : Mat m Q1.sizeState) (c : ℝ),
      Q1.linearize (moveAll Q.constKeys Q1.varSlices δ Q.varsInit) = .ok ⟨m, Q1.sizeState, e, H, c⟩ ∧
      Hᵀ * H = (ps.map fun p => p.A δ).sum ∧ Hᵀ *ᵥ e = (ps.map fun p => p.b δ).sum := by
  obtain ⟨r1, r2, r3⟩ := started_slices h
  obtain ⟨e1, e2, e3, e4, e5, e6, -, -⟩ := started_fields h
  obtain ⟨T, -, -⟩ := started_table h hf hn
  have hok := rowSlices_ok r1
  have hsz : ∀ r ∈ Q.residuals, ∃ xs e, lookupAll Q.varsInit r.keys = .ok xs ∧ r.error xs = .ok e ∧ e.length = rowCount Q.varsInit r := by
    intro r hr
    obtain ⟨xs, e, h1, h2⟩ := hok r hr
    refine ⟨xs, e, h1, h2, ?_⟩
    unfold rowCount
    rw [h1, ok_bindE, h2]
  have g1 := rowSlices_of (v := Q.varsInit) (rowCount Q.varsInit) Q.residuals 0 hsz
  have hfst : (Q.residuals.zip Q.losses).map Prod.fst = Q.residuals := List.map_fst_zip (by omega)
  rw [g1] at r1
  have r1' := Except.ok.inj r1
  have hres : Reserved Q1 0 0 ((Q.residuals.zip Q.losses).map fun p => (p, rowCount Q.varsInit p.1)) := by
    refine reserved_of (v := Q.varsInit) _ _ 0 0 (fun j => ?_) ?_
    · rw [hfst, Nat.zero_add, r1']
    · rw [hfst, r1']
  have hrow : ∀ (rl : Residual K (List ℝ) × Loss) (p : Piece Q1.sizeState), rl ∈ Q.residuals.zip Q.losses →
      IsPiece Q.constKeys Q1.varSlices Q1.sizeState Q.varsInit rl p → p.m = rowCount Q.varsInit rl.1 := by
    intro rl p hrl hpc
    obtain ⟨xs, e, h1, h2, h3⟩ := hsz rl.1 (List.of_mem_zip hrl).1
    rw [← h3]
    exact (hpc.len 0 xs e (by rw [moveAll_zero]; exact h1) h2).symm
  have hloc : ∀ (l : List (Residual K (List ℝ) × Loss)) (qs : List (Piece Q1.sizeState)), (∀ rl ∈ l, rl ∈ Q.residuals.zip Q.losses) →
      List.Forall₂ (fun rl p => IsPiece Q.constKeys Q1.varSlices Q1.sizeState Q.varsInit rl p) l qs →
      ∃ as, Locals Q1.constKeys Q1.varSlices Q1.sizeState (moveAll Q.constKeys Q1.varSlices δ Q.varsInit)
        (l.map fun p => (p, rowCount Q.varsInit p.1)) as ∧
        (∀ c d : Fin Q1.sizeState, (as.map fun x => gram x.1.H.get x.2 c d).sum = (qs.map fun p => p.A δ).sum c d) ∧
        ∀ c : Fin Q1.sizeState, (as.map fun x => grad x.1.H.get x.1.e x.2 c).sum = (qs.map fun p => p.b δ).sum c := by
    intro l qs hl hq
    induction hq with
    | nil => exact ⟨[], .nil, fun c d => rfl, fun c => rfl⟩
    | @cons rl p l qs hpc _ ih =>
      obtain ⟨as, i1, i2, i3⟩ := ih fun rl hrl => hl rl (List.mem_cons_of_mem _ hrl)
      have hm := hl rl List.mem_cons_self
      obtain ⟨a, k1, k2, k3⟩ := hpc.scaled (hw rl hm) δ
      have hmr := hrow rl p hm hpc
      refine ⟨(a, rowCount Q.varsInit rl.1) :: as, ?_, fun c d => ?_, fun c => ?_⟩
      · rw [List.map_cons]
        refine .cons ?_ i1
        rw [← hmr, e3]
        exact k1
      · rw [List.map_cons, List.map_cons, List.sum_cons, List.sum_cons, Matrix.add_apply, i2, ← k2 c d, hmr]
      · rw [List.map_cons, List.map_cons, List.sum_cons, List.sum_cons, Pi.add_apply, i3, ← k3 c, hmr]
  obtain ⟨as, j1, j2, j3⟩ := hloc _ ps (fun _ h => h) hp
  obtain ⟨a', t1, t2, t3, t4⟩ := asmLoop_adds (n := Q1.sizeState) T.fits (a := ⟨fun _ => 0, DMat.zeros Q1.sizeErr Q1.sizeState, 0⟩) j1 hres
    rfl rfl (fun _ _ _ => rfl)
  refine ⟨Q1.sizeErr, fun i => a'.e i, fun i j => a'.H.get i j, a'.cost, ?_, ?_, ?_⟩
  · unfold Prob.linearize
    rw [List.map_map] at t1
    have : (Q1.residuals.zip Q1.losses) = (Q.residuals.zip Q.losses).map (Prod.fst ∘ fun p => (p, rowCount Q.varsInit p.1)) := by
      rw [e4, e5]; exact (List.map_id _).symm
    rw [this, t1]
    rfl
  · ext c d
    refine (gram_fin a'.H.get c d).trans ?_
    rw [t2 c d c.2 d.2, ← j2 c d]
    show gram _ 0 _ _ + _ = _
    rw [show gram (DMat.zeros Q1.sizeErr Q1.sizeState).get 0 c d = 0 from rfl, zero_add]
  · ext c
    refine (grad_fin a'.H.get a'.e c).trans ?_
    rw [t3 c c.2, ← j3 c]
    show grad _ _ 0 _ + _ = _
    rw [show ∀ e, grad (DMat.zeros Q1.sizeErr Q1.sizeState).get e 0 c = 0 from fun _ => rfl, zero_add]

end Verif
