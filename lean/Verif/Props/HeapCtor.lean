import Verif.Props.HeapCopy

/-!
C85: what the constructors keep. `VectorState` (and `IMU` inputs) copy the arrays they are given; Lie group states,
composite states, estimates and vector inputs keep the caller's objects and show every later change made to them.
-/

namespace Verif.Heap

open Verif

set_option linter.unusedVariables false

/-- A program that holds older references only leaves a newly allocated last object alone. -/
theorem last_kept {h : Heap} (hw : WF h) (o : Obj) (cs : List Cmd) (vars : List Ref)
    (hv : ∀ v ∈ vars, v < h.length) : (runCmds cs (h ++ [o]) vars).1[h.length]? = some o := by
  rw [(confined (A := fun r => r < h.length) cs (h ++ [o]) vars ?_ ?_).2 h.length (lt_irrefl _) (by simp), get_last]
  · intro s o' ho hs p hp
    rcases hs with hs | hs
    · rw [List.getElem?_append_left hs] at ho
      exact Or.inl (hw o' (List.mem_of_getElem? ho) p hp)
    · rw [List.getElem?_eq_none hs] at ho
      cases ho
  · exact fun v hv' => Or.inl (hv v hv')

/-- C85: `VectorState(a)` copies the array: it is separate from everything the caller had. -/
theorem C85_vector_copies {k : ℕ} {h : Heap} {v : Ref} {a : Arr} (hw : WF h) (ha : arrAt h v = some a)
    (s : Option ℝ) (i : Id) :
    ∃ (r' : Ref) (h' : Heap), newVec h v s i = .ok (r', h') ∧
      contents (k + 1) h' r' = some (.vec a.ravel s i) ∧ Separate h h' r' := by
  have e : newVec h v s i = .ok (h.length + 1, h ++ [.arr (.vec a.ravel), .vec h.length a.ravel.length s i]) := by
    unfold newVec
    rw [readArr_of ha]
    show Except.ok (alloc (h ++ [.arr (.vec a.ravel)]) (.vec h.length a.ravel.length s i)) = _
    simp [alloc]
  refine ⟨_, _, e, contents_vec k (get_off _ _ 1) (arrAt_off (i := 0) rfl), separate_of hw ?_ (by omega) (by simp)⟩
  intro o ho q hq
  simp only [List.mem_cons, List.not_mem_nil, or_false] at ho
  rcases ho with rfl | rfl
  · simp [Obj.refs] at hq
  · simp [Obj.refs] at hq; subst hq; simp

/-- C85: a Lie group state built from exponential coordinates owns its matrix. -/
theorem C85_lie_coordinates_copied (Exp : LieCls → Arr → Arr) {k : ℕ} {h : Heap} {v : Ref} {a : Arr} {c : LieCls}
    {n : ℕ} {M : Mat n n} (hw : WF h) (ha : arrAt h v = some a) (hs : a.size = c.dof)
    (hE : Exp c a = .mat n n M) (hn : n * n ≠ c.dof) (s : Option ℝ) (i : Id) (d : String) :
    ∃ (r' : Ref) (h' : Heap), newLie Exp c h v s i d = .ok (r', h') ∧
      contents (k + 1) h' r' = some (.lie c n M s i d) ∧ Separate h h' r' := by
  have e : newLie Exp c h v s i d = .ok (h.length + 1, h ++ [.arr (.mat n n M), .lie c h.length s i d]) := by
    unfold newLie
    rw [readArr_of ha]
    show (if a.size = c.dof then _ else _) = _
    rw [if_pos hs, hE]
    show Except.ok (alloc (h ++ [.arr (.mat n n M)]) (.lie c h.length s i d)) = _
    simp [alloc]
  refine ⟨_, _, e, contents_lie (M := ⟨n, M⟩) k (get_off _ _ 1) (arrAt_off (i := 0) rfl) (asSquare_mat M hn),
    separate_of hw ?_ (by omega) (by simp)⟩
  intro o ho q hq
  simp only [List.mem_cons, List.not_mem_nil, or_false] at ho
  rcases ho with rfl | rfl
  · simp [Obj.refs] at hq
  · simp [Obj.refs] at hq; subst hq; simp

/-- C85: a Lie group state built from a matrix keeps the caller's array: whatever the caller does later, the state
shows the current contents of that array. -/
theorem C85_lie_matrix_shared (Exp : LieCls → Arr → Arr) {k : ℕ} {h : Heap} {v : Ref} {c : LieCls} {n : ℕ}
    {M : Mat n n} (hw : WF h) (ha : arrAt h v = some (.mat n n M)) (hn : n * n ≠ c.dof) (s : Option ℝ) (i : Id)
    (d : String) :
    ∃ (r' : Ref) (h' : Heap), newLie Exp c h v s i d = .ok (r', h') ∧
      contents (k + 1) h' r' = some (.lie c n M s i d) ∧
      (∀ (cs : List Cmd) (vars : List Ref), (∀ w ∈ vars, w < h.length) → ∀ (m : ℕ) (N : Mat m m), m * m ≠ c.dof →
        arrAt (runCmds cs h' vars).1 v = some (.mat m m N) →
        contents (k + 1) (runCmds cs h' vars).1 r' = some (.lie c m N s i d)) ∧
      (∀ (m : ℕ) (N : Mat m m), m * m ≠ c.dof →
        contents (k + 1) (runCmds [.store 0 (.arr (.mat m m N))] h' [v]).1 r' = some (.lie c m N s i d)) := by
  have hM : asSquare c (.mat n n M) = some ⟨n, M⟩ := asSquare_mat M hn
  have hv : v < h.length := (List.getElem?_eq_some_iff.mp (arrAt_some ha)).1
  have key : ∀ (cs : List Cmd) (vars : List Ref), (∀ w ∈ vars, w < h.length) → ∀ (m : ℕ) (N : Mat m m),
      m * m ≠ c.dof → arrAt (runCmds cs (h ++ [.lie c v s i d]) vars).1 v = some (.mat m m N) →
      contents (k + 1) (runCmds cs (h ++ [.lie c v s i d]) vars).1 h.length = some (.lie c m N s i d) :=
    fun cs vars hvars m N hm hN =>
      contents_lie (M := ⟨m, N⟩) k (last_kept hw _ cs vars hvars) hN (asSquare_mat N hm)
  refine ⟨_, _, newLie_spec Exp ha hM s i d,
    contents_lie (M := ⟨n, M⟩) k (get_last _ _) (arrAt_grow ha) hM, key, ?_⟩
  intro m N hm
  refine key [.store 0 (.arr (.mat m m N))] [v] (by simpa using hv) m N hm ?_
  have : runCmds [.store 0 (.arr (.mat m m N))] (h ++ [.lie c v s i d]) [v]
      = ((h ++ [Obj.lie c v s i d]).set v (.arr (.mat m m N)), [v]) := by
    simp [runCmds, Cmd.step, Obj.refs]
  rw [this]
  unfold arrAt
  rw [set_get_eq (by simp; omega)]

/-- C85: `CompositeState(l)` keeps the caller's list and the states in it: it shows the current contents of both. -/
theorem C85_composite_shared {k : ℕ} {h : Heap} {l : Ref} (hw : WF h) (hl : l < h.length) (s : Option ℝ) (i : Id)
    (cs : List Cmd) (vars : List Ref) (hv : ∀ w ∈ vars, w < h.length) {rs : List Ref} {ts : List STree}
    (h1 : listAt (runCmds cs (newComp h l s i).2 vars).1 l = some rs)
    (h2 : rs.mapM (contents k (runCmds cs (newComp h l s i).2 vars).1) = some ts) :
    contents (k + 1) (runCmds cs (newComp h l s i).2 vars).1 (newComp h l s i).1 = some (.comp ts s i) :=
  contents_comp (last_kept hw _ cs vars hv) h1 h2

/-- C85: `StateWithCovariance(x, P)` keeps the caller's state and covariance: it shows the current contents of both. -/
theorem C85_estimate_shared {k : ℕ} {h : Heap} {x c : Ref} {t : STree} {n : ℕ} {P : Mat n n} (hw : WF h)
    (hx : contents k h x = some t) (hP : arrAt h c = some (.mat n n P)) (hn : n = t.dof) :
    ∃ (r' : Ref) (h' : Heap), newSwc k h x c = .ok (r', h') ∧ contentsSwc k h' r' = some (t, ⟨n, P⟩) ∧
      ∀ (cs : List Cmd) (vars : List Ref), (∀ w ∈ vars, w < h.length) → ∀ (t' : STree) (m : ℕ) (Q : Mat m m),
        contents k (runCmds cs h' vars).1 x = some t' → arrAt (runCmds cs h' vars).1 c = some (.mat m m Q) →
        m = t'.dof → contentsSwc k (runCmds cs h' vars).1 r' = some (t', ⟨m, Q⟩) :=
  ⟨_, _, newSwc_spec hx hP hn, contentsSwc_intro (get_last _ _) (contents_grow hx) (arrAt_grow hP) hn,
    fun cs vars hv t' m Q h1 h2 h3 => contentsSwc_intro (last_kept hw _ cs vars hv) h1 h2 h3⟩

/-- C85: `VectorInput(u, covariance=C)` keeps both arrays. -/
theorem C85_input_shared {k : ℕ} {h : Heap} {v c : Ref} (hw : WF h) (s : Option ℝ) (i : Id) (cs : List Cmd)
    (vars : List Ref) (hv : ∀ w ∈ vars, w < h.length) {a C : Arr}
    (h1 : arrAt (runCmds cs (newVinput h v s i (some c)).2 vars).1 v = some a)
    (h2 : arrAt (runCmds cs (newVinput h v s i (some c)).2 vars).1 c = some C) :
    contentsInput (k + 1) (runCmds cs (newVinput h v s i (some c)).2 vars).1 (newVinput h v s i (some c)).1
      = some (.vec a s i (some C)) := by
  have h0 : (runCmds cs (newVinput h v s i (some c)).2 vars).1[(newVinput h v s i (some c)).1]?
      = some (.vinput v s i (some c)) := last_kept hw _ cs vars hv
  unfold contentsInput
  rw [h0]
  show (arrAt _ v >>= _) = _
  rw [h1]
  show (covAt _ (some c) >>= _) = _
  simp only [covAt, h2]
  rfl

/-- C85: `IMUState(T, bg, ba)` keeps the caller's navigation matrix but copies the two bias arrays: a program of the
caller can change the navigation part only. -/
theorem C85_imu_state (Exp : LieCls → Arr → Arr) {k : ℕ} {h : Heap} {nav bg ba : Ref} {n : ℕ} {M : Mat n n}
    {g a : List ℝ} (hw : WF h) (h0 : arrAt h nav = some (.mat n n M)) (hn : n * n ≠ 9)
    (h1 : arrAt h bg = some (.vec g)) (h2 : arrAt h ba = some (.vec a)) (s : Option ℝ) (i : Id) (d : String) :
    ∃ (r' : Ref) (h' : Heap), newImuState Exp h nav bg ba s i d = .ok (r', h') ∧
      ∀ (cs : List Cmd) (vars : List Ref), (∀ w ∈ vars, w < h.length) → ∀ (m : ℕ) (N : Mat m m), m * m ≠ 9 →
        arrAt (runCmds cs h' vars).1 nav = some (.mat m m N) →
        contents (k + 2) (runCmds cs h' vars).1 r'
          = some (.imu (.lie .SE23 m N s (some "pose") d) (.vec g s (some "gyro_bias"))
              (.vec a s (some "accel_bias")) s i) := by
  have hnav : nav < h.length := (List.getElem?_eq_some_iff.mp (arrAt_some h0)).1
  refine ⟨_, _, newImuState_spec Exp h0 hn h1 h2 s i d, ?_⟩
  intro cs vars hv m N hm hN
  generalize hnew : [Obj.lie .SE23 nav s (some "pose") d, .arr (.vec g),
    .vec (h.length + 1) g.length s (some "gyro_bias"), .arr (.vec a),
    .vec (h.length + 3) a.length s (some "accel_bias"), .list [h.length, h.length + 2, h.length + 4],
    .imuState (h.length + 5) s i] = new at *
  have hlen : new.length = 7 := by rw [← hnew]; rfl
  have keep : ∀ j < 7, (runCmds cs (h ++ new) vars).1[h.length + j]? = new[j]? := by
    intro j hj
    rw [(confined (A := fun r => r < h.length) cs (h ++ new) vars ?_ ?_).2 (h.length + j) (by omega)
      (by rw [List.length_append, hlen]; omega), get_off]
    · intro r o ho hr p hp
      rcases hr with hr | hr
      · rw [List.getElem?_append_left hr] at ho
        exact Or.inl (hw o (List.mem_of_getElem? ho) p hp)
      · rw [List.getElem?_eq_none hr] at ho
        cases ho
    · exact fun v hv' => Or.inl (hv v hv')
  have k0 : (runCmds cs (h ++ new) vars).1[h.length]? = some (.lie .SE23 nav s (some "pose") d) :=
    (keep 0 (by omega)).trans (by rw [← hnew]; rfl)
  have k1 : (runCmds cs (h ++ new) vars).1[h.length + 1]? = some (.arr (.vec g)) :=
    (keep 1 (by omega)).trans (by rw [← hnew]; rfl)
  have k2 : (runCmds cs (h ++ new) vars).1[h.length + 2]?
      = some (.vec (h.length + 1) g.length s (some "gyro_bias")) := (keep 2 (by omega)).trans (by rw [← hnew]; rfl)
  have k3 : (runCmds cs (h ++ new) vars).1[h.length + 3]? = some (.arr (.vec a)) :=
    (keep 3 (by omega)).trans (by rw [← hnew]; rfl)
  have k4 : (runCmds cs (h ++ new) vars).1[h.length + 4]?
      = some (.vec (h.length + 3) a.length s (some "accel_bias")) := (keep 4 (by omega)).trans (by rw [← hnew]; rfl)
  have k5 : (runCmds cs (h ++ new) vars).1[h.length + 5]?
      = some (.list [h.length, h.length + 2, h.length + 4]) := (keep 5 (by omega)).trans (by rw [← hnew]; rfl)
  have k6 : (runCmds cs (h ++ new) vars).1[h.length + 6]? = some (.imuState (h.length + 5) s i) :=
    (keep 6 (by omega)).trans (by rw [← hnew]; rfl)
  have a1 : arrAt (runCmds cs (h ++ new) vars).1 (h.length + 1) = some (.vec g) := by unfold arrAt; rw [k1]
  have a3 : arrAt (runCmds cs (h ++ new) vars).1 (h.length + 3) = some (.vec a) := by unfold arrAt; rw [k3]
  have l5 : listAt (runCmds cs (h ++ new) vars).1 (h.length + 5)
      = some [h.length, h.length + 2, h.length + 4] := by unfold listAt; rw [k5]
  refine contents_imu (k := k + 1) k6 l5 (ts := [.lie .SE23 m N s (some "pose") d, .vec g s (some "gyro_bias"),
    .vec a s (some "accel_bias")]) ?_ rfl
  rw [List.mapM_cons, List.mapM_cons, List.mapM_cons, List.mapM_nil,
    contents_lie (M := ⟨m, N⟩) k k0 hN (asSquare_mat N hm), contents_vec k k2 a1, contents_vec k k4 a3]
  rfl

/-- The hypotheses are met: an array, a matrix, a list and a vector state on a heap. -/
example : WF exHeap ∧ arrAt exHeap 0 = some (.vec [1, 2]) ∧ arrAt exHeap 2 = some (.mat 3 3 1) ∧
    3 * 3 ≠ LieCls.SE2.dof ∧ listAt exHeap 4 = some [1, 3] ∧ contents 1 exHeap 1 = some (.vec [1, 2] (some 0) (some "v")) :=
  ⟨exHeap_wf, rfl, rfl, by decide, rfl, contents_vec (l := [1, 2]) 0 rfl rfl⟩

end Verif.Heap
