import Verif.Model.PosePlot
import Verif.Lemmas.Imu
import Mathlib.Tactic

/-!
C115: what the plots of poses show (`navlie/utils/plot.py:310-638`).
-/

set_option linter.unusedVariables false
set_option linter.unusedSimpArgs false

namespace Verif

open Matrix

/-! ### Equal axes -/

/-- **C115, `set_axes_equal`.** Afterwards all axes have the same range, the largest of the old ones; each new interval has the old
centre and contains the old interval. A second call changes nothing. The lower limit comes first, also for an inverted axis. -/
theorem C115_axes_equal (l : Limits) :
    (∀ i j, (setAxesEqual l i).2 - (setAxesEqual l i).1 = (setAxesEqual l j).2 - (setAxesEqual l j).1) ∧
    (∀ i, |(l i).2 - (l i).1| ≤ (setAxesEqual l i).2 - (setAxesEqual l i).1) ∧
    (∃ i, (setAxesEqual l i).2 - (setAxesEqual l i).1 = |(l i).2 - (l i).1|) ∧
    (∀ i, (setAxesEqual l i).1 + (setAxesEqual l i).2 = (l i).1 + (l i).2) ∧
    (∀ i, (setAxesEqual l i).1 ≤ min (l i).1 (l i).2 ∧ max (l i).1 (l i).2 ≤ (setAxesEqual l i).2) ∧
    setAxesEqual (setAxesEqual l) = setAxesEqual l := by
  set L := max |(l 0).2 - (l 0).1| (max |(l 1).2 - (l 1).1| |(l 2).2 - (l 2).1|) with hL
  have h1 : ∀ i, (setAxesEqual l i).1 = ((l i).1 + (l i).2) / 2 - 0.5 * L := fun i => rfl
  have h2 : ∀ i, (setAxesEqual l i).2 = ((l i).1 + (l i).2) / 2 + 0.5 * L := fun i => rfl
  have hle : ∀ i, |(l i).2 - (l i).1| ≤ L := by
    intro i
    fin_cases i
    · exact le_max_left _ _
    · exact (le_max_left _ _).trans (le_max_right _ _)
    · exact (le_max_right _ _).trans (le_max_right _ _)
  have hr : ∀ i, (setAxesEqual l i).2 - (setAxesEqual l i).1 = L := by
    intro i; rw [h1, h2]; ring
  have hL0 : 0 ≤ L := (abs_nonneg _).trans (hle 0)
  refine ⟨fun i j => by rw [hr, hr], fun i => by rw [hr]; exact hle i, ?_, ?_, ?_, ?_⟩
  · rcases max_choice |(l 0).2 - (l 0).1| (max |(l 1).2 - (l 1).1| |(l 2).2 - (l 2).1|) with h | h
    · exact ⟨0, by rw [hr, hL, h]⟩
    · rcases max_choice |(l 1).2 - (l 1).1| |(l 2).2 - (l 2).1| with h' | h'
      · exact ⟨1, by rw [hr, hL, h, h']⟩
      · exact ⟨2, by rw [hr, hL, h, h']⟩
  · intro i; rw [h1, h2]; ring
  · intro i
    have h3 := abs_le.mp (hle i)
    rw [h1, h2]
    constructor
    · refine le_min ?_ ?_ <;> norm_num <;> linarith [h3.1, h3.2]
    · refine max_le ?_ ?_ <;> norm_num <;> linarith [h3.1, h3.2]
  · funext i
    have h4 : setAxesEqual (setAxesEqual l) i = (((setAxesEqual l i).1 + (setAxesEqual l i).2) / 2 - 0.5 * max |(setAxesEqual l 0).2 - (setAxesEqual l 0).1|
        (max |(setAxesEqual l 1).2 - (setAxesEqual l 1).1| |(setAxesEqual l 2).2 - (setAxesEqual l 2).1|),
        ((setAxesEqual l i).1 + (setAxesEqual l i).2) / 2 + 0.5 * max |(setAxesEqual l 0).2 - (setAxesEqual l 0).1|
        (max |(setAxesEqual l 1).2 - (setAxesEqual l 1).1| |(setAxesEqual l 2).2 - (setAxesEqual l 2).1|)) := rfl
    rw [h4, hr, hr, hr, abs_of_nonneg hL0, max_self, max_self, h1, h2]
    refine Prod.ext ?_ ?_
    · rw [h1]; ring
    · rw [h2]; ring

/-! ### Which poses are shown -/

/-- The indexes of the poses that are shown: every `s`-th, from the first on. -/
def shownIdx (n s : ℕ) : List ℕ := (List.range n).filter fun i => i % s == 0

theorem pyRange_eq (n s : ℕ) (hs : 1 ≤ s) : pyRange n s = .ok (shownIdx n s) := by
  unfold pyRange
  rw [if_neg (by omega), if_neg (by omega)]
  congr 1
  rw [Int.toNat_natCast]
  refine List.Perm.eq_of_pairwise (le := fun a b : ℕ => a < b) ?_ ?_ ?_ ?_
  · intro a b _ _ h1 h2; omega
  · rw [List.pairwise_map]
    exact (List.pairwise_lt_range).imp fun h => Nat.mul_lt_mul_of_pos_right h (by omega)
  · exact List.Pairwise.filter _ List.pairwise_lt_range
  · rw [List.perm_ext_iff_of_nodup]
    · intro a
      simp only [shownIdx, List.mem_map, List.mem_range, List.mem_filter, beq_iff_eq]
      constructor
      · rintro ⟨k, hk, rfl⟩
        refine ⟨?_, Nat.mul_mod_left _ _⟩
        rw [Nat.lt_div_iff_mul_lt (by omega)] at hk
        have : k * s = s * k := Nat.mul_comm _ _
        omega
      · rintro ⟨ha, hm⟩
        refine ⟨a / s, ?_, Nat.div_mul_cancel (Nat.dvd_of_mod_eq_zero hm)⟩
        rw [Nat.lt_div_iff_mul_lt (by omega)]
        have := Nat.div_mul_cancel (Nat.dvd_of_mod_eq_zero hm)
        have h2 : a / s * s = s * (a / s) := Nat.mul_comm _ _
        omega
    · refine List.Nodup.map ?_ List.nodup_range
      intro a b h
      exact Nat.eq_of_mul_eq_mul_right (by omega) h
    · exact List.Nodup.filter _ List.nodup_range

/-- The poses that are shown. -/
def shownPoses {P : Type} (ps : List P) (s : ℕ) : List P := (shownIdx ps.length s).filterMap fun i => ps[i]?

theorem filterMap_range {P : Type} (ps : List P) : (List.range ps.length).filterMap (fun i => ps[i]?) = ps := by
  induction ps with
  | nil => rfl
  | cons p ps ih =>
    rw [List.length_cons, List.range_succ_eq_map, List.filterMap_cons]
    simp only [List.getElem?_cons_zero, List.filterMap_map]
    congr 1

/-- All poses are shown with `step=1`. -/
theorem shownPoses_one {P : Type} (ps : List P) : shownPoses ps 1 = ps := by
  unfold shownPoses shownIdx
  have : (List.range ps.length).filter (fun i => i % 1 == 0) = List.range ps.length := by
    rw [List.filter_eq_self]
    intro a _
    simp [Nat.mod_one]
  rw [this, filterMap_range]

/-! ### Cameras -/

/-- A corner of the image plane at distance one, in the frame of the camera. -/
def IsCorner (p : Vec 3) : Prop := (p 0 = 1 ∨ p 0 = -1) ∧ (p 1 = 1 ∨ p 1 = -1) ∧ p 2 = 1

/-- The edges of the pyramid of a camera: the four sides of the image and the four lines from the optical centre to the corners. -/
def CamEdge (p q : Vec 3) : Prop :=
  (IsCorner p ∧ IsCorner q ∧ ((p 0 = q 0 ∧ p 1 ≠ q 1) ∨ (p 0 ≠ q 0 ∧ p 1 = q 1))) ∨ (IsCorner p ∧ q = 0) ∨ (p = 0 ∧ IsCorner q)

theorem corner_cases {p : Vec 3} (h : IsCorner p) : p = ![-1, -1, 1] ∨ p = ![1, -1, 1] ∨ p = ![-1, 1, 1] ∨ p = ![1, 1, 1] := by
  obtain ⟨h0, h1, h2⟩ := h
  have e : p = ![p 0, p 1, p 2] := by ext i; fin_cases i <;> rfl
  rcases h0 with h0 | h0 <;> rcases h1 with h1 | h1 <;> rw [e, h0, h1, h2] <;> simp

/-- **C115, a camera.** The drawing of a camera with attitude `C` at `r` consists of the edges of the pyramid, scaled, rotated and shifted:
these segments (in one of the two directions) and no others; there are eight. -/
theorem C115_camera (s : ℝ) (C : Mat 3 3) (r : Vec 3) : (cameraSegments s C r).length = 8 ∧
    ∀ u v, ((u, v) ∈ cameraSegments s C r ∨ (v, u) ∈ cameraSegments s C r) ↔
      ∃ p q, CamEdge p q ∧ u = r + s • (C *ᵥ p) ∧ v = r + s • (C *ᵥ q) := by
  refine ⟨rfl, fun u v => ?_⟩
  have c0 : camPoints s 0 = s • ![-1, -1, 1] := rfl
  have c1 : camPoints s 1 = s • ![1, -1, 1] := rfl
  have c2 : camPoints s 2 = s • ![-1, 1, 1] := rfl
  have c3 : camPoints s 3 = s • ![1, 1, 1] := rfl
  have c4 : camPoints s 4 = s • (0 : Vec 3) := by
    show s • ![0, 0, 0] = _
    congr 1
    ext i; fin_cases i <;> rfl
  have k0 : IsCorner ![-1, -1, 1] := ⟨.inr rfl, .inr rfl, rfl⟩
  have k1 : IsCorner ![1, -1, 1] := ⟨.inl rfl, .inr rfl, rfl⟩
  have k2 : IsCorner ![-1, 1, 1] := ⟨.inr rfl, .inl rfl, rfl⟩
  have k3 : IsCorner ![1, 1, 1] := ⟨.inl rfl, .inl rfl, rfl⟩
  have hn : (-1 : ℝ) ≠ 1 := by norm_num
  have hn' : (1 : ℝ) ≠ -1 := by norm_num
  simp only [cameraSegments, camConnections, List.map_cons, List.map_nil, List.mem_cons, List.not_mem_nil, or_false, Prod.mk.injEq, c0, c1, c2,
    c3, c4, mulVec_smul, add_comm _ r]
  constructor
  · have sym : ∀ p q, CamEdge p q → CamEdge q p := by
      rintro p q (⟨a, b, c⟩ | h | h)
      · refine .inl ⟨b, a, ?_⟩
        rcases c with ⟨c1, c2⟩ | ⟨c1, c2⟩
        · exact .inl ⟨c1.symm, c2.symm⟩
        · exact .inr ⟨c1.symm, c2.symm⟩
      · exact .inr (.inr h.symm)
      · exact .inr (.inl h.symm)
    have e01 : CamEdge ![-1, -1, 1] ![1, -1, 1] := .inl ⟨k0, k1, .inr ⟨hn, rfl⟩⟩
    have e23 : CamEdge ![-1, 1, 1] ![1, 1, 1] := .inl ⟨k2, k3, .inr ⟨hn, rfl⟩⟩
    have e02 : CamEdge ![-1, -1, 1] ![-1, 1, 1] := .inl ⟨k0, k2, .inl ⟨rfl, hn⟩⟩
    have e13 : CamEdge ![1, -1, 1] ![1, 1, 1] := .inl ⟨k1, k3, .inl ⟨rfl, hn⟩⟩
    have e4 : ∀ p, IsCorner p → CamEdge p 0 := fun p h => .inr (.inl ⟨h, rfl⟩)
    rintro (h | h)
    · rcases h with ⟨rfl, rfl⟩ | ⟨rfl, rfl⟩ | ⟨rfl, rfl⟩ | ⟨rfl, rfl⟩ | ⟨rfl, rfl⟩ | ⟨rfl, rfl⟩ | ⟨rfl, rfl⟩ | ⟨rfl, rfl⟩
      · exact ⟨_, _, e01, rfl, rfl⟩
      · exact ⟨_, _, e23, rfl, rfl⟩
      · exact ⟨_, _, e02, rfl, rfl⟩
      · exact ⟨_, _, e13, rfl, rfl⟩
      · exact ⟨_, _, e4 _ k0, rfl, rfl⟩
      · exact ⟨_, _, e4 _ k1, rfl, rfl⟩
      · exact ⟨_, _, e4 _ k2, rfl, rfl⟩
      · exact ⟨_, _, e4 _ k3, rfl, rfl⟩
    · rcases h with ⟨rfl, rfl⟩ | ⟨rfl, rfl⟩ | ⟨rfl, rfl⟩ | ⟨rfl, rfl⟩ | ⟨rfl, rfl⟩ | ⟨rfl, rfl⟩ | ⟨rfl, rfl⟩ | ⟨rfl, rfl⟩
      · exact ⟨_, _, sym _ _ e01, rfl, rfl⟩
      · exact ⟨_, _, sym _ _ e23, rfl, rfl⟩
      · exact ⟨_, _, sym _ _ e02, rfl, rfl⟩
      · exact ⟨_, _, sym _ _ e13, rfl, rfl⟩
      · exact ⟨_, _, sym _ _ (e4 _ k0), rfl, rfl⟩
      · exact ⟨_, _, sym _ _ (e4 _ k1), rfl, rfl⟩
      · exact ⟨_, _, sym _ _ (e4 _ k2), rfl, rfl⟩
      · exact ⟨_, _, sym _ _ (e4 _ k3), rfl, rfl⟩
  · rintro ⟨p, q, h, rfl, rfl⟩
    rcases h with ⟨hp, hq, h⟩ | ⟨hp, rfl⟩ | ⟨rfl, hq⟩
    · rcases corner_cases hp with rfl | rfl | rfl | rfl <;> rcases corner_cases hq with rfl | rfl | rfl | rfl <;>
        first
          | (exfalso; norm_num at h; done)
          | (simp; done)
    · rcases corner_cases hp with rfl | rfl | rfl | rfl <;> simp
    · rcases corner_cases hq with rfl | rfl | rfl | rfl <;> simp

/-- **C115, cameras and changes of frame.** Moving the cameras by a rigid transformation moves the drawing by it, and the drawing of a
camera is rigid: distances in it are `scale` times those in the pyramid. -/
theorem C115_camera_frame (s : ℝ) (C A : Mat 3 3) (r b : Vec 3) :
    cameraSegments s (A * C) (A *ᵥ r + b) = (cameraSegments s C r).map (fun e => (A *ᵥ e.1 + b, A *ᵥ e.2 + b)) ∧
    (IsOrtho C → ∀ p q : Vec 3, (fun d => d ⬝ᵥ d) ((r + s • (C *ᵥ p)) - (r + s • (C *ᵥ q))) = s ^ 2 * (fun d => d ⬝ᵥ d) (p - q)) := by
  constructor
  · simp only [cameraSegments, List.map_map]
    refine List.map_congr_left fun c _ => ?_
    simp only [Function.comp, mulVec_add, mulVec_mulVec, add_assoc]
  · intro hC p q
    have e : (r + s • (C *ᵥ p)) - (r + s • (C *ᵥ q)) = s • (C *ᵥ (p - q)) := by
      rw [mulVec_sub, smul_sub]; abel
    simp only [e, smul_dotProduct, dotProduct_smul, smul_eq_mul]
    have : (C *ᵥ (p - q)) ⬝ᵥ (C *ᵥ (p - q)) = (p - q) ⬝ᵥ (p - q) := by
      rw [dotProduct_mulVec, vecMul_mulVec, ← mulVec_transpose]
      have h : Cᵀ * C = 1 := hC
      simp [h]
    rw [this]; ring

/-- **C115, `plot_camera_poses`.** One camera for every `step`-th pose, in order; `step=0` raises, a negative one draws nothing. -/
theorem C115_camera_poses (poses : PoseArg (PPose 3)) (scale : ℝ) :
    (∀ s : ℕ, 1 ≤ s → plotCameraPoses poses s scale =
      .ok ((shownPoses poses.toList s).map fun p => cameraSegments scale p.attitude p.position)) ∧
    plotCameraPoses poses 0 scale = .error .valueError ∧ ∀ s : ℤ, s < 0 → plotCameraPoses poses s scale = .ok [] := by
  refine ⟨fun s hs => ?_, rfl, fun s hs => ?_⟩
  · have h := pyRange_eq poses.toList.length s hs
    simp only [plotCameraPoses, h]
    rfl
  · have h : pyRange poses.toList.length s = .ok [] := by
      unfold pyRange
      rw [if_neg (by omega), if_pos hs]
    simp only [plotCameraPoses, h]
    rfl

/-! ### `plot_poses` -/

theorem shownIdx_ne (n s : ℕ) (h : 0 < n) : shownIdx n s ≠ [] := by
  refine List.ne_nil_of_mem (a := 0) ?_
  simpa only [shownIdx, List.mem_filter, List.mem_range, Nat.zero_mod, beq_self_eq_true, and_true] using h

/-- **C115, `plot_poses` in three dimensions.** On new or given 3D axes the line goes through the positions of all poses, and every
`step`-th pose has three arrows at its position: the columns of its attitude, the axes of its body. Without a step there are no arrows. -/
theorem C115_spatial (poses : PoseArg (PPose 3)) (h : poses.toList ≠ []) (ax : PoseAx) (plot2d : Bool)
    (hax : ax = .spatial ∨ (ax = .new ∧ plot2d = false)) :
    plotPoses poses ax none plot2d = .ok ⟨true, poses.toList.map fun p => [p.position 0, p.position 1, p.position 2], []⟩ ∧
    ∀ s : ℕ, 1 ≤ s → plotPoses poses ax (some s) plot2d = .ok ⟨true, poses.toList.map fun p => [p.position 0, p.position 1, p.position 2],
      [0, 1, 2].map fun j : Fin 3 => (shownPoses poses.toList s).map fun p =>
        ([p.position 0, p.position 1, p.position 2], [p.attitude 0 j, p.attitude 1 j, p.attitude 2 j])⟩ := by
  have he : poses.toList.isEmpty = false := by
    rw [List.isEmpty_eq_false_iff]; exact h
  have hf : ∀ v : Vec 3, firstCoords 3 v = [v 0, v 1, v 2] := fun v => rfl
  have hfr : (List.finRange 3).take 3 = [0, 1, 2] := by decide
  constructor
  · unfold plotPoses
    rcases hax with rfl | ⟨rfl, rfl⟩ <;> simp [he, hf, bind, Except.bind, pure, Except.pure]
  · intro s hs
    have hp := pyRange_eq poses.toList.length s hs
    have hidx := shownIdx_ne _ s (List.length_pos_iff.mpr h)
    unfold plotPoses
    rcases hax with rfl | ⟨rfl, rfl⟩ <;>
      simp [he, hf, hp, hidx, hfr, bind, Except.bind, pure, Except.pure, poseArrow, shownPoses, transpose_apply]

/-- **C115, bird's eye view.** Poses of three dimensions are drawn on new or given planar axes if `plot_2d` is set: the first two coordinates
of the positions, and of the first two columns of the attitudes. -/
theorem C115_birds_eye (poses : PoseArg (PPose 3)) (h : poses.toList ≠ []) (ax : PoseAx) (hax : ax = .new ∨ ax = .planar) :
    plotPoses poses ax none true = .ok ⟨false, poses.toList.map fun p => [p.position 0, p.position 1], []⟩ ∧
    ∀ s : ℕ, 1 ≤ s → plotPoses poses ax (some s) true = .ok ⟨false, poses.toList.map fun p => [p.position 0, p.position 1],
      [0, 1].map fun j : Fin 3 => (shownPoses poses.toList s).map fun p =>
        ([p.position 0, p.position 1], [p.attitude 0 j, p.attitude 1 j])⟩ := by
  have he : poses.toList.isEmpty = false := by
    rw [List.isEmpty_eq_false_iff]; exact h
  have hf : ∀ v : Vec 3, firstCoords 2 v = [v 0, v 1] := fun v => rfl
  have hfr : (List.finRange 3).take 2 = [0, 1] := by decide
  constructor
  · unfold plotPoses
    rcases hax with rfl | rfl <;> simp [he, hf, bind, Except.bind, pure, Except.pure]
  · intro s hs
    have hp := pyRange_eq poses.toList.length s hs
    have hidx := shownIdx_ne _ s (List.length_pos_iff.mpr h)
    unfold plotPoses
    rcases hax with rfl | rfl <;>
      simp [he, hf, hp, hidx, hfr, bind, Except.bind, pure, Except.pure, poseArrow, shownPoses, transpose_apply]

/-- **C115, `plot_poses` in the plane.** Planar poses on new or given planar axes, whatever `plot_2d` is. -/
theorem C115_planar (poses : PoseArg (PPose 2)) (h : poses.toList ≠ []) (ax : PoseAx) (hax : ax = .new ∨ ax = .planar) (plot2d : Bool) :
    plotPoses poses ax none plot2d = .ok ⟨false, poses.toList.map fun p => [p.position 0, p.position 1], []⟩ ∧
    ∀ s : ℕ, 1 ≤ s → plotPoses poses ax (some s) plot2d = .ok ⟨false, poses.toList.map fun p => [p.position 0, p.position 1],
      [0, 1].map fun j : Fin 2 => (shownPoses poses.toList s).map fun p =>
        ([p.position 0, p.position 1], [p.attitude 0 j, p.attitude 1 j])⟩ := by
  have he : poses.toList.isEmpty = false := by
    rw [List.isEmpty_eq_false_iff]; exact h
  have hf : ∀ v : Vec 2, firstCoords 2 v = [v 0, v 1] := fun v => rfl
  have hfr : (List.finRange 2).take 2 = [0, 1] := by decide
  constructor
  · unfold plotPoses
    rcases hax with rfl | rfl <;> simp [he, hf, bind, Except.bind, pure, Except.pure]
  · intro s hs
    have hp := pyRange_eq poses.toList.length s hs
    have hidx := shownIdx_ne _ s (List.length_pos_iff.mpr h)
    unfold plotPoses
    rcases hax with rfl | rfl <;>
      simp [he, hf, hp, hidx, hfr, bind, Except.bind, pure, Except.pure, poseArrow, shownPoses, transpose_apply]

/-- **C115, `plot_poses` raises**: without poses; for planar poses on 3D axes; for spatial poses on given planar axes unless `plot_2d` is set;
and, where a plot would be made, for steps that are not positive. -/
theorem C115_poses_raises :
    (∀ (d : ℕ) (poses : PoseArg (PPose d)) ax step plot2d, poses.toList = [] → plotPoses poses ax step plot2d = .error .indexError) ∧
    (∀ (poses : PoseArg (PPose 2)) step plot2d, plotPoses poses .spatial step plot2d = .error .indexError) ∧
    (∀ (poses : PoseArg (PPose 3)) step, poses.toList ≠ [] → plotPoses poses .planar step false = .error .attributeError) ∧
    ∀ (poses : PoseArg (PPose 3)) plot2d, poses.toList ≠ [] → plotPoses poses .new (some 0) plot2d = .error .valueError ∧
      ∀ s : ℤ, s < 0 → plotPoses poses .new (some s) plot2d = .error .indexError := by
  refine ⟨?_, ?_, ?_, ?_⟩
  · intro d poses ax step plot2d h
    unfold plotPoses
    simp [h, bind, Except.bind]
  · intro poses step plot2d
    unfold plotPoses
    by_cases h : poses.toList.isEmpty = true
    · simp [h, bind, Except.bind]
    · simp [h, bind, Except.bind, pure, Except.pure]
  · intro poses step h
    unfold plotPoses
    simp [h, bind, Except.bind, pure, Except.pure]
  · intro poses plot2d h
    constructor
    · unfold plotPoses
      cases plot2d <;> simp [h, bind, Except.bind, pure, Except.pure, pyRange]
    · intro s hs
      have h2 : pyRange poses.toList.length s = .ok [] := by
        unfold pyRange
        rw [if_neg (by omega), if_pos hs]
      unfold plotPoses
      cases plot2d <;> simp [h, h2, bind, Except.bind, pure, Except.pure]

/-- Seven poses with the default step of five: the first and the sixth have triads. -/
example (f : ℕ → PPose 3) : ∃ p, plotPoses (.list ((List.range 7).map f)) .new (some 5) false = .ok p ∧ p.line.length = 7 ∧
    (p.arrows.map List.length) = [2, 2, 2] ∧
    (p.arrows.map fun a => a.map Prod.snd) = [0, 1, 2].map fun j : Fin 3 => [f 0, f 5].map fun q => [q.attitude 0 j, q.attitude 1 j, q.attitude 2 j] := by
  have h7 : shownPoses (PoseArg.list ((List.range 7).map f)).toList 5 = [f 0, f 5] := by
    have hi : shownIdx 7 5 = [0, 5] := by decide
    unfold shownPoses PoseArg.toList
    rw [List.length_map, List.length_range, hi]
    rfl
  refine ⟨_, (C115_spatial (.list ((List.range 7).map f)) (by simp [PoseArg.toList, List.range, List.range.loop]) .new false (.inr ⟨rfl, rfl⟩)).2 5 (by norm_num), ?_, ?_, ?_⟩
  · simp [PoseArg.toList]
  · simp only [h7]; rfl
  · simp only [h7]; rfl

/-- A camera that is turned by a quarter about its optical axis. -/
example : IsOrtho !![0, -1, 0; 1, 0, 0; 0, 0, 1] := by
  unfold IsOrtho
  ext i j
  fin_cases i <;> fin_cases j <;> simp [Matrix.mul_apply, Fin.sum_univ_three]

end Verif
