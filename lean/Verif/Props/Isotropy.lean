import Verif.Lemmas.TurnHarmonics
import Verif.Lemmas.RunMap
import Verif.Props.GlobalSolutions

/-!
# C154: the truncated equations have no preferred direction
-/

namespace Barotropic
open Matrix

variable {Q : Matrix (Fin 3) (Fin 3) ℝ} {T : ℕ} {N : ℕ → ℕ → ℝ} {g : Grid ℝ} {S : g.Sph} {τ : Type}

theorem orthogonal_mul (hQ : Q ∈ orthogonalGroup (Fin 3) ℝ) : Q * Qᵀ = 1 ∧ Qᵀ * Q = 1 :=
  ⟨(mem_orthogonalGroup_iff _ _).mp hQ, (mem_orthogonalGroup_iff' _ _).mp hQ⟩

theorem orthogonal_det (hQ : Q ∈ orthogonalGroup (Fin 3) ℝ) : Q.det * Q.det = 1 := by
  have := congrArg Matrix.det (orthogonal_mul hQ).1
  rwa [Matrix.det_mul, Matrix.det_transpose, Matrix.det_one] at this

theorem turnL_spacetime (Q : Matrix (Fin 3) (Fin 3) ℝ) (x y : ℝ) : ∀ i : Fin 3, turnL Q (spacetime 0 x y) i.succ = (Q *ᵥ unitVec x y) i := by
  have u0 : unitVec x y 0 = spacetime 0 x y 1 := rfl
  have u1 : unitVec x y 1 = spacetime 0 x y 2 := rfl
  have u2 : unitVec x y 2 = spacetime 0 x y 3 := rfl
  intro i
  unfold Matrix.mulVec dotProduct
  rw [Fin.sum_univ_three, u0, u1, u2]
  fin_cases i
  · exact turnL_1 _
  · exact turnL_2 _
  · exact turnL_3 _

/-- Points of the turned sphere -/
theorem turnL_back (hQ : Q ∈ orthogonalGroup (Fin 3) ℝ) {x y x' y' : ℝ} : unitVec x' y' = Q *ᵥ unitVec x y ↔ turnL Qᵀ (spacetime 0 x' y') = spacetime 0 x y := by
  have e : unitVec x' y' = Q *ᵥ unitVec x y ↔ Qᵀ *ᵥ unitVec x' y' = unitVec x y := by
    constructor
    · intro h
      rw [h, Matrix.mulVec_mulVec, (orthogonal_mul hQ).2, Matrix.one_mulVec]
    · intro h
      rw [← h, Matrix.mulVec_mulVec, (orthogonal_mul hQ).1, Matrix.one_mulVec]
  rw [e]
  constructor
  · intro h
    funext i
    refine Fin.cases ?_ (fun j => ?_) i
    · exact turnL_0 _
    · rw [turnL_spacetime, h]
      fin_cases j <;> rfl
  · intro h
    funext j
    rw [← turnL_spacetime, h]
    fin_cases j <;> rfl

theorem exists_origin (hQ : Q ∈ orthogonalGroup (Fin 3) ℝ) (x' y' : ℝ) : ∃ x y, unitVec x' y' = Q *ᵥ unitVec x y := by
  obtain ⟨x, y, e⟩ := exists_lonlat (turnL_unit (Q := Qᵀ) (by rw [Matrix.transpose_transpose]; exact (orthogonal_mul hQ).1) (spacetime_unit 0 x' y'))
  exact ⟨x, y, (turnL_back hQ).mpr e.symm⟩

theorem Turned.unique (hQ : Q ∈ orthogonalGroup (Fin 3) ℝ) {f f1 f2 : ℝ → ℝ → ℝ} (h1 : Turned Q f f1) (h2 : Turned Q f f2) : f1 = f2 := by
  funext x' y'
  obtain ⟨x, y, e⟩ := exists_origin hQ x' y'
  rw [h1 x y x' y' e, h2 x y x' y' e]

theorem harmonicSum_smul (c : ℝ) (a : SpecField T) (x y : ℝ) : harmonicSum N (c • a) x y = c * harmonicSum N a x y := modeSum_smul ..

/-- Turned coefficients -/
theorem exists_turn (hN : ∀ n m, N n m ≠ 0) (hQ : Q ∈ orthogonalGroup (Fin 3) ℝ) (s : SpecField T) :
    ∃ s' : SpecField T, RealZonal s' ∧ ∀ a : ℕ → ℝ, Turned Q (harmonicSum N (degMul a s)) (harmonicSum N (degMul a s')) := by
  have hpart : ∀ n, SingleDegree n (degMul (fun j => if j = n then 1 else 0) s) := fun n k hk => by simp [degMul, hk]
  choose c hc hc' hv using fun n => exists_turn_degree hN (Q := Qᵀ) (by rw [Matrix.transpose_transpose]; exact (orthogonal_mul hQ).2)
    (by rw [Matrix.transpose_transpose]; exact (orthogonal_mul hQ).1) (hpart n)
  refine ⟨Q.det • ∑ n ∈ Finset.range (T + 1), c n, fun k hk => ?_, fun a x y x' y' e => ?_⟩
  · rw [Pi.smul_apply, Complex.smul_im, Finset.sum_apply, Complex.im_sum, Finset.sum_eq_zero fun n _ => hc n k hk, smul_zero]
  · have e1 : degMul a (Q.det • ∑ n ∈ Finset.range (T + 1), c n) = ∑ n ∈ Finset.range (T + 1), (Q.det * a n) • c n := by
      funext k
      simp only [degMul, Pi.smul_apply, Finset.sum_apply, Complex.real_smul, Finset.mul_sum]
      refine Finset.sum_congr rfl fun n _ => ?_
      by_cases hk : specN k = n
      · rw [hk]; push_cast; ring
      · rw [hc' n k hk]; simp
    have e2 : degMul a s = ∑ n ∈ Finset.range (T + 1), a n • degMul (fun j => if j = n then 1 else 0) s := by
      funext k
      simp only [degMul, Pi.smul_apply, Finset.sum_apply, Complex.real_smul]
      rw [Finset.sum_eq_single (specN k)]
      · simp
      · intro n _ hn
        simp [hn.symm]
      · intro h
        exact absurd (Finset.mem_range.mpr (Nat.lt_succ_of_le (specN_le k))) h
    rw [e1, e2]
    change modeSum _ _ _ _ _ = _ * modeSum _ _ _ _ _
    rw [modeSum_sum, modeSum_sum, Finset.mul_sum]
    refine Finset.sum_congr rfl fun n _ => ?_
    rw [modeSum_smul, modeSum_smul]
    have := hv n x' y' x y ((turnL_back hQ).mp e)
    change harmonicSum N (c n) x' y' = _ at this
    change _ * harmonicSum N (c n) x' y' = _ * (_ * harmonicSum N _ x y)
    rw [this]
    ring

/-- Turned coefficients as a function of the coefficients -/
noncomputable def turnSpec (hN : ∀ n m, N n m ≠ 0) (hQ : Q ∈ orthogonalGroup (Fin 3) ℝ) (s : SpecField T) : SpecField T := (exists_turn hN hQ s).choose

variable (hN : ∀ n m, N n m ≠ 0) (hQ : Q ∈ orthogonalGroup (Fin 3) ℝ)
include hN hQ

theorem turnSpec_real (s : SpecField T) : RealZonal (turnSpec hN hQ s) := (exists_turn hN hQ s).choose_spec.1

theorem turnSpec_degMul_turned (a : ℕ → ℝ) (s : SpecField T) : Turned Q (harmonicSum N (degMul a s)) (harmonicSum N (degMul a (turnSpec hN hQ s))) :=
  (exists_turn hN hQ s).choose_spec.2 a

theorem turnSpec_turned (s : SpecField T) : Turned Q (harmonicSum N s) (harmonicSum N (turnSpec hN hQ s)) := by
  have h := turnSpec_degMul_turned hN hQ (fun _ => 1) s
  have e : ∀ s : SpecField T, degMul (fun _ => 1) s = s := fun s => by funext k; simp [degMul]
  rwa [e, e] at h

theorem turnSpec_unique {s s' : SpecField T} (hs : RealZonal s') (h : Turned Q (harmonicSum N s) (harmonicSum N s')) : s' = turnSpec hN hQ s :=
  harmonic_unique hN hs (turnSpec_real hN hQ s) fun x y _ => congrFun (congrFun (Turned.unique hQ h (turnSpec_turned hN hQ s)) x) y

theorem turnSpec_degMul (a : ℕ → ℝ) (s : SpecField T) : turnSpec hN hQ (degMul a s) = degMul a (turnSpec hN hQ s) := by
  refine (turnSpec_unique hN hQ (fun k hk => ?_) (turnSpec_degMul_turned hN hQ a s)).symm
  simp [degMul, turnSpec_real hN hQ s k hk]

theorem turnSpec_add (s s' : SpecField T) : turnSpec hN hQ (s + s') = turnSpec hN hQ s + turnSpec hN hQ s' := by
  refine (turnSpec_unique hN hQ (fun k hk => ?_) fun x y x' y' e => ?_).symm
  · rw [Pi.add_apply, Complex.add_im, turnSpec_real hN hQ s k hk, turnSpec_real hN hQ s' k hk, add_zero]
  · rw [harmonicSum_add, harmonicSum_add, turnSpec_turned hN hQ s x y x' y' e, turnSpec_turned hN hQ s' x y x' y' e, mul_add]

theorem turnSpec_smul (c : ℝ) (s : SpecField T) : turnSpec hN hQ (c • s) = c • turnSpec hN hQ s := by
  refine (turnSpec_unique hN hQ (fun k hk => ?_) fun x y x' y' e => ?_).symm
  · rw [Pi.smul_apply, Complex.smul_im, turnSpec_real hN hQ s k hk, smul_zero]
  · rw [harmonicSum_smul, harmonicSum_smul, turnSpec_turned hN hQ s x y x' y' e]
    ring

/-- Turned coefficients as a linear map -/
noncomputable def turnMap : SpecField T →ₗ[ℝ] SpecField T where
  toFun := turnSpec hN hQ
  map_add' := turnSpec_add hN hQ
  map_smul' := turnSpec_smul hN hQ

theorem turnSpec_sub (s s' : SpecField T) : turnSpec hN hQ (s - s') = turnSpec hN hQ s - turnSpec hN hQ s' := map_sub (turnMap hN hQ) s s'
theorem turnSpec_neg (s : SpecField T) : turnSpec hN hQ (-s) = -turnSpec hN hQ s := map_neg (turnMap hN hQ) s

theorem turnSpec_retrunc_up {T' : ℕ} (h : T ≤ T') (s : SpecField T) : turnSpec hN hQ (retrunc T' s) = retrunc T' (turnSpec hN hQ s) := by
  refine (turnSpec_unique hN hQ (retrunc_real (turnSpec_real hN hQ s)) fun x y x' y' e => ?_).symm
  rw [harmonicSum_retrunc h, harmonicSum_retrunc h]
  exact turnSpec_turned hN hQ s x y x' y' e

omit hN hQ in
theorem retrunc_down {T' : ℕ} (h : T ≤ T') (s : SpecField T') : retrunc T' (retrunc T s) = degMul (fun n => if n ≤ T then 1 else 0) s := by
  funext k
  by_cases hk : specN k ≤ T
  · obtain ⟨l, hl, hl'⟩ := exists_mode (T := T) (specM_le_specN k) hk
    rw [retrunc_apply (retrunc T s) hl' hl, retrunc_apply s hl'.symm hl.symm]
    simp [degMul, hk]
  · rw [retrunc_zero_of _ (not_le.mp hk)]
    simp [degMul, hk]

theorem turnSpec_retrunc_down {T' : ℕ} (h : T ≤ T') (s : SpecField T') : turnSpec hN hQ (retrunc T s) = retrunc T (turnSpec hN hQ s) := by
  refine (turnSpec_unique hN hQ (retrunc_real (turnSpec_real hN hQ s)) fun x y x' y' e => ?_).symm
  rw [← harmonicSum_retrunc h, ← harmonicSum_retrunc h, retrunc_down h, retrunc_down h]
  exact turnSpec_degMul_turned hN hQ _ s x y x' y' e

/-- C154: a triangular truncation has no preferred direction: a turned field is a field with the same truncation; every degree is turned on its own. -/
theorem C154_truncation (s : SpecField T) : (∃! s' : SpecField T, RealZonal s' ∧ Turned Q (harmonicSum N s) (harmonicSum N s')) ∧
    ∀ s' : SpecField T, RealZonal s' → Turned Q (harmonicSum N s) (harmonicSum N s') → ∀ a : ℕ → ℝ, Turned Q (harmonicSum N (degMul a s)) (harmonicSum N (degMul a s')) :=
  ⟨⟨turnSpec hN hQ s, ⟨turnSpec_real hN hQ s, turnSpec_turned hN hQ s⟩, fun _ h => turnSpec_unique hN hQ h.1 h.2⟩, fun s' hs h a => by
    rw [turnSpec_unique hN hQ hs h]
    exact turnSpec_degMul_turned hN hQ a s⟩

omit hN in
/-- Advection of turned fields -/
theorem triple_turned {F G : (Fin 4 → ℝ) → ℝ} (hF : ContDiff ℝ (⊤ : ℕ∞) F) (hG : ContDiff ℝ (⊤ : ℕ∞) G) (p : Fin 4 → ℝ) :
    triple (fun p => Q.det * F (turnL Qᵀ p)) (fun p => Q.det * G (turnL Qᵀ p)) p = Q.det * triple F G (turnL Qᵀ p) := by
  have l : ∀ {F : (Fin 4 → ℝ) → ℝ}, ContDiff ℝ (⊤ : ℕ∞) F → ∀ i p, pd i (fun p => Q.det * F p) p = Q.det * pd i F p := fun hF i p => by
    have := congrFun (pd_lin hF hF hF Q.det 0 0 i) p
    simpa using this
  have h := triple_turn hF hG (Q := Qᵀ) (by rw [Matrix.transpose_transpose]; exact (orthogonal_mul hQ).2) p
  rw [Matrix.det_transpose] at h
  rw [← h]
  unfold triple
  simp only [l (turn_smooth hF Qᵀ), l (turn_smooth hG Qᵀ)]
  have hd := orthogonal_det hQ
  generalize Q.det = d at *
  generalize pd 1 (fun p => F (turnL Qᵀ p)) p = a1
  generalize pd 2 (fun p => F (turnL Qᵀ p)) p = a2
  generalize pd 3 (fun p => F (turnL Qᵀ p)) p = a3
  generalize pd 1 (fun p => G (turnL Qᵀ p)) p = b1
  generalize pd 2 (fun p => G (turnL Qᵀ p)) p = b2
  generalize pd 3 (fun p => G (turnL Qᵀ p)) p = b3
  linear_combination (p 1 * (a2 * b3 - a3 * b2) + p 2 * (a3 * b1 - a1 * b3) + p 3 * (a1 * b2 - a2 * b1)) * hd

omit hN in
theorem advection_turned {r : ℝ} (hr : r ≠ 0) {q p f q' p' f' : SpecField T} (hq : Turned Q (harmonicSum N q) (harmonicSum N q'))
    (hp : Turned Q (harmonicSum N p) (harmonicSum N p')) (hf : ∀ x y, Real.cos y ≠ 0 → harmonicSum N f x y = sphereFlux r (harmonicSum N q) (harmonicSum N p) x y)
    (hf' : ∀ x y, Real.cos y ≠ 0 → harmonicSum N f' x y = sphereFlux r (harmonicSum N q') (harmonicSum N p') x y) : Turned Q (harmonicSum N f) (harmonicSum N f') := by
  obtain ⟨A, hA⟩ := exists_poly (N := N) q
  obtain ⟨B, hB⟩ := exists_poly (N := N) p
  obtain ⟨C, hC⟩ := exists_poly (N := N) f
  obtain ⟨C', hC'⟩ := exists_poly (N := N) f'
  have sA := mvPoly_smooth A
  have sB := mvPoly_smooth B
  have sA' : ContDiff ℝ (⊤ : ℕ∞) fun p => Q.det * A.eval (turnL Qᵀ p) := contDiff_const.mul (turn_smooth sA Qᵀ)
  have sB' : ContDiff ℝ (⊤ : ℕ∞) fun p => Q.det * B.eval (turnL Qᵀ p) := contDiff_const.mul (turn_smooth sB Qᵀ)
  have cont : ∀ {F G : (Fin 4 → ℝ) → ℝ}, ContDiff ℝ (⊤ : ℕ∞) F → ContDiff ℝ (⊤ : ℕ∞) G → Continuous fun p => triple F G p / r ^ 2 := fun hF hG => by
    have h1 := fun i => (pd_smooth hF i).continuous
    have h2 := fun i => (pd_smooth hG i).continuous
    have := fun i : Fin 4 => (continuous_apply i : Continuous fun p : Fin 4 → ℝ => p i)
    unfold triple
    fun_prop
  have key : ∀ {F G : (Fin 4 → ℝ) → ℝ} {q p f : SpecField T} {C : MvPolynomial (Fin 4) ℝ}, ContDiff ℝ (⊤ : ℕ∞) F → ContDiff ℝ (⊤ : ℕ∞) G →
      (∀ x y, harmonicSum N q x y = F (spacetime 0 x y)) → (∀ x y, harmonicSum N p x y = G (spacetime 0 x y)) →
      (∀ t x y, harmonicSum N f x y = C.eval (spacetime t x y)) →
      (∀ x y, Real.cos y ≠ 0 → harmonicSum N f x y = sphereFlux r (harmonicSum N q) (harmonicSum N p) x y) →
      ∀ x y, harmonicSum N f x y = triple G F (spacetime 0 x y) / r ^ 2 := by
    intro F G q p f C hF hG eq ep ef h x y
    rw [ef 0]
    refine onSphere_ext (F := fun p => C.eval p) (G := fun p => triple G F p / r ^ 2) (mvPoly_smooth C).continuous (cont hG hF) (t := 0) (fun x y hy => ?_) x y
    have e1 : harmonicSum N q = onSphere F 0 := by funext x y; exact eq x y
    have e2 : harmonicSum N p = onSphere G 0 := by funext x y; exact ep x y
    refine (ef 0 x y).symm.trans ?_
    rw [h x y hy, e1, e2, sphereFlux_triple hF hG hr 0 x hy]
    rfl
  have k1 := key sA sB (hA 0) (hB 0) hC hf
  have k2 := key sA' sB' (fun x' y' => by
      obtain ⟨x, y, e⟩ := exists_origin hQ x' y'
      rw [hq x y x' y' e, (turnL_back hQ).mp e, hA 0]) (fun x' y' => by
      obtain ⟨x, y, e⟩ := exists_origin hQ x' y'
      rw [hp x y x' y' e, (turnL_back hQ).mp e, hB 0]) hC' hf'
  intro x y x' y' e
  rw [k1, k2, triple_turned hQ sB sA, (turnL_back hQ).mp e]
  ring

variable (hΩ : Turned Q (fun _ y => g.omega * Real.sin y) fun _ y => g.omega * Real.sin y)
include hΩ

theorem solid_turned (h1 : 1 ≤ T) : turnSpec hN hQ (solidRotation N g.omega : SpecField T) = solidRotation N g.omega := by
  refine (turnSpec_unique hN hQ (solidRotation_real _) fun x y x' y' e => ?_).symm
  have := hΩ x y x' y' e
  dsimp only at this
  rw [harmonicSum_solid hN h1, harmonicSum_solid hN h1, mul_assoc, mul_assoc, this]
  ring

theorem vorticity_turned {B : ℕ} (h : Spharm.Exact N B S) (h1 : 1 ≤ g.ntrunc) (hB : 1 ≤ B) (t : τ) (q : g.Spc) :
    St.vorticitySpectral S (⟨t, turnSpec hN hQ q⟩ : St τ g) = turnSpec hN hQ (St.vorticitySpectral S (⟨t, q⟩ : St τ g)) := by
  unfold St.vorticitySpectral
  rw [h.fcor2 h1 hB, turnSpec_sub, solid_turned hN hQ hΩ h1]

theorem flux_turned_exact (hg : g.Valid) {B : ℕ} (h : Spharm.Exact N B S) (t : τ) (q : g.Spc) {D : ℕ} (hD : 1 ≤ D) (hT : 2 * D ≤ g.ntrunc) (hB : 2 * D ≤ B)
    (hq : BandLimited D q) : St.pvFluxSpectral S (⟨t, turnSpec hN hQ q⟩ : St τ g) = turnSpec hN hQ (St.pvFluxSpectral S (⟨t, q⟩ : St τ g)) := by
  have hr := hg.rsphere_pos.ne'
  have hband : BandLimited D (turnSpec hN hQ q) := by
    have e : degMul (fun n => if n ≤ D then 1 else 0) q = q := by
      funext k
      by_cases hk : specN k ≤ D
      · simp [degMul, hk]
      · simp [hq k (not_le.mp hk), degMul]
    intro k hk
    rw [← e, turnSpec_degMul]
    simp [degMul, not_le.mpr hk]
  obtain ⟨-, -, -, a4⟩ := flux_exact hg h (⟨t, q⟩ : St τ g) hD hT hB hq
  obtain ⟨b1, -, -, b4⟩ := flux_exact hg h (⟨t, turnSpec hN hQ q⟩ : St τ g) hD hT hB hband
  rw [vorticity_turned hN hQ hΩ h (by omega) (by omega)] at b4
  refine turnSpec_unique hN hQ b1 (advection_turned hQ hr (turnSpec_turned hN hQ q) ?_ a4 b4)
  exact turnSpec_degMul_turned hN hQ _ _

/-- The tendency of turned PV -/
theorem flux_turned (hg : g.Valid) (h : Spharm.Dealiased N S) (h1 : 1 ≤ g.ntrunc) (hT : 2 * g.ntrunc + 1 ≤ g.nlat) (t : τ) (q : g.Spc) :
    St.pvFluxSpectral S (⟨t, turnSpec hN hQ q⟩ : St τ g) = turnSpec hN hQ (St.pvFluxSpectral S (⟨t, q⟩ : St τ g)) := by
  obtain ⟨S', h', hS⟩ := h
  have hle : g.ntrunc ≤ 2 * g.ntrunc := by omega
  obtain ⟨-, ef⟩ := flux_withTrunc h1 (by omega) hle h' hS (⟨t, q⟩ : St τ g)
  obtain ⟨-, ef'⟩ := flux_withTrunc h1 (by omega) hle h' hS (⟨t, turnSpec hN hQ q⟩ : St τ g)
  have key := flux_turned_exact (g := g.withTrunc (2 * g.ntrunc)) hN hQ hΩ (withTrunc_valid hg hT) h' t (retrunc (2 * g.ntrunc) q) h1 le_rfl le_rfl (retrunc_band_self _)
  rw [ef', ef, turnSpec_retrunc_down hN hQ hle]
  refine congrArg (retrunc g.ntrunc) ?_
  refine Eq.trans ?_ key
  unfold St.withTrunc
  rw [turnSpec_retrunc_up hN hQ hle]

/-- C154: the tendency of PV of a turned flow is the turned tendency, for every state. -/
theorem C154_flux (hg : g.Valid) (h : Spharm.Dealiased N S) (h1 : 1 ≤ g.ntrunc) (hT : 2 * g.ntrunc + 1 ≤ g.nlat) {s s' : St τ g} (hs : RealZonal s'.q)
    (hq : Turned Q (s.pvFn N) (s'.pvFn N)) :
    Turned Q (s.streamFn N S) (s'.streamFn N S) ∧ Turned Q (harmonicSum N (s.pvFluxSpectral S)) (harmonicSum N (s'.pvFluxSpectral S)) := by
  obtain ⟨t, q⟩ := s
  obtain ⟨t', q'⟩ := s'
  have e : q' = turnSpec hN hQ q := turnSpec_unique hN hQ hs hq
  subst e
  constructor
  · rw [streamFn_eq, streamFn_eq]
    have ev := vorticity_turned hN hQ hΩ h.exact h1 h1 t q
    have ev' : St.vorticitySpectral S (⟨t', turnSpec hN hQ q⟩ : St τ g) = turnSpec hN hQ (St.vorticitySpectral S (⟨t, q⟩ : St τ g)) := ev
    rw [ev']
    exact turnSpec_degMul_turned hN hQ _ _
  · have ef : St.pvFluxSpectral S (⟨t', turnSpec hN hQ q⟩ : St τ g) = turnSpec hN hQ (St.pvFluxSpectral S (⟨t, q⟩ : St τ g)) := flux_turned hN hQ hΩ hg h h1 hT t q
    rw [ef]
    exact turnSpec_turned hN hQ _

variable {M M' : BModel g}

/-- Turning the sphere carries the runs of a model to those of the turned model. -/
theorem turn_runMap (hg : g.Valid) (h : Spharm.Dealiased N S) (h1 : 1 ≤ g.ntrunc) (hT : 2 * g.ntrunc + 1 ≤ g.nlat) (hM : M.Turns N S Q M') :
    RunMap S S M M' 1 (turnMap hN hQ) id id (fun _ => True) (fun _ => True) where
  seconds d _ := (one_mul _).symm
  add t d _ _ := by change t.add d = _; cases t.add d <;> rfl
  sub t t' _ _ := by change t.sub t' = _; cases t.sub t' <;> rfl
  lt t t' _ _ := rfl
  add_ok _ _ _ _ _ _ := trivial
  sub_ok _ _ _ _ _ _ := trivial
  tendency s _ := by
    have e1 : (fun t : g.Spc => (1 : ℝ) • t) = id := by funext t; exact one_smul _ _
    have e2 : ∀ x : Except PyErr g.Spc, x.map id = x := fun x => by cases x <;> rfl
    rw [e1, e2]
    have ef : St.pvFluxSpectral S (⟨s.time, turnSpec hN hQ s.q⟩ : St PyTime g) = turnSpec hN hQ (s.pvFluxSpectral S) := flux_turned hN hQ hΩ hg h h1 hT s.time s.q
    change M'.tendency S ⟨s.time, turnSpec hN hQ s.q⟩ = _
    unfold BModel.tendency
    dsimp only
    rw [ef]
    cases hr : M.rhs with
    | none =>
      rw [hM.none hr]
      refine congrArg Except.ok ?_
      exact (turnSpec_neg hN hQ _).symm
    | some f =>
      obtain ⟨f', h3, h4⟩ := hM.rhs f hr
      rw [h3]
      dsimp only
      rcases h4 s ⟨s.time, turnSpec hN hQ s.q⟩ rfl (turnSpec_turned hN hQ s.q) with ⟨e, he, he'⟩ | ⟨r, r', he, he', ht⟩
      · rw [he, he']
        rfl
      · rw [he, he']
        refine congrArg Except.ok ?_
        change -turnSpec hN hQ _ + S.grdtospec r' = turnSpec hN hQ (-_ + S.grdtospec r)
        rw [turnSpec_add, turnSpec_neg, ← turnSpec_unique hN hQ (h.exact.analysis_real r') ht]
  diffusion dt q := by
    rw [one_mul]
    change M'.applyDiffusion S dt (turnSpec hN hQ q) = turnSpec hN hQ _
    unfold BModel.applyDiffusion
    rw [hM.order, hM.coeff]
    rcases hM.bg with ⟨hb, hb'⟩ | ⟨b, b', hb, hb', ht⟩
    · rw [hb, hb']
      simp only [Grid.diffusion_eq_degMul]
      rw [turnSpec_degMul]
    · rw [hb, hb']
      simp only [Grid.diffusion_eq_degMul]
      rw [show Grid.toSpectral S b' = turnSpec hN hQ (Grid.toSpectral S b) from turnSpec_unique hN hQ (h.exact.analysis_real b') ht, turnSpec_add, turnSpec_degMul, turnSpec_sub]

/-- C154: a run from a turned state is the turned run, exactly and for all time steps: the same times, and PV and streamfunction of the final and all saved states are turned. -/
theorem C154_run (hg : g.Valid) (h : Spharm.Dealiased N S) (h1 : 1 ≤ g.ntrunc) (hT : 2 * g.ntrunc + 1 ≤ g.nlat) (hM : M.Turns N S Q M') {s s' : St PyTime g}
    (ht : s'.time = s.time) (hs : RealZonal s'.q) (hq : Turned Q (s.pvFn N) (s'.pvFn N)) (dt : PyDelta) (tend : PyTime) (se : ℝ) {sf : St PyTime g} {saved : List (St PyTime g)}
    (hr : M.Returns S s dt tend se sf saved) :
    ∃ sf' saved', M'.Returns S s' dt tend se sf' saved' ∧
      List.Forall₂ (fun w w' : St PyTime g => w'.time = w.time ∧ Turned Q (w.pvFn N) (w'.pvFn N) ∧ Turned Q (w.streamFn N S) (w'.streamFn N S)) (sf :: saved) (sf' :: saved') := by
  obtain ⟨t', q'⟩ := s'
  obtain rfl : q' = turnSpec hN hQ s.q := turnSpec_unique hN hQ hs hq
  obtain rfl : t' = s.time := ht
  obtain ⟨fuel, hr⟩ := hr
  have key := (turn_runMap hN hQ hΩ hg h h1 hT hM).run one_pos (se := se) (.inr fun t x _ => by rw [one_mul]; rfl) s dt tend fuel trivial trivial trivial
  rw [one_mul, hr] at key
  refine ⟨_, _, ⟨fuel, key⟩, ?_⟩
  have hw : ∀ w : St PyTime g, (RunMap.on (turnMap hN hQ) id w).time = w.time ∧ Turned Q (w.pvFn N) ((RunMap.on (turnMap hN hQ) id w).pvFn N) ∧
      Turned Q (w.streamFn N S) ((RunMap.on (turnMap hN hQ) id w).streamFn N S) := fun w =>
    ⟨rfl, turnSpec_turned hN hQ w.q, (C154_flux hN hQ hΩ hg h h1 hT (s := w) (s' := RunMap.on (turnMap hN hQ) id w) (turnSpec_real hN hQ w.q) (turnSpec_turned hN hQ w.q)).1⟩
  refine List.Forall₂.cons (hw sf) ?_
  rw [List.forall₂_map_right_iff]
  exact List.forall₂_same.mpr fun w _ => hw w

omit hN hQ hΩ

/-- C154: the directions that the rotation of the planet leaves: everything on a planet without rotation; otherwise only rotations about the axis and reflections that exchange the poles. -/
theorem C154_planet (g : Grid ℝ) (hQ : Q ∈ orthogonalGroup (Fin 3) ℝ) : (Turned Q (fun _ y => g.omega * Real.sin y) fun _ y => g.omega * Real.sin y) ↔
    g.omega = 0 ∨ ∀ v : Fin 3 → ℝ, (Q *ᵥ v) 2 = Q.det * v 2 := by
  have h2 : ∀ x y, unitVec x y 2 = Real.sin y := fun x y => rfl
  constructor
  · intro h
    by_cases h0 : g.omega = 0
    · exact .inl h0
    refine .inr ?_
    have key : ∀ x y, (Q *ᵥ unitVec x y) 2 = Q.det * Real.sin y := by
      intro x y
      have e1 := turnL_unit (orthogonal_mul hQ).2 (spacetime_unit 0 x y)
      obtain ⟨x', y', e⟩ := exists_lonlat e1
      have e3 : unitVec x' y' = Q *ᵥ unitVec x y := by
        funext i
        rw [← turnL_spacetime, ← e]
        fin_cases i <;> rfl
      have := h x y x' y' e3
      dsimp only at this
      rw [← e3, h2]
      refine mul_left_cancel₀ h0 ?_
      rw [this]
      ring
    have k0 := key 0 0
    have k1 := key (Real.pi / 2) 0
    have k2 := key 0 (Real.pi / 2)
    simp only [unitVec, Matrix.mulVec, dotProduct, Fin.sum_univ_three, Matrix.cons_val_zero, Matrix.cons_val_one, Matrix.cons_val, Real.cos_zero, Real.sin_zero, Real.cos_pi_div_two,
      Real.sin_pi_div_two, mul_zero, mul_one, add_zero, zero_add] at k0 k1 k2
    intro v
    simp only [Matrix.mulVec, dotProduct, Fin.sum_univ_three]
    rw [k0, k1, k2]
    ring
  · rintro (h0 | h) x y x' y' e
    · simp [h0]
    · have := h (unitVec x y)
      rw [← e, h2, h2] at this
      dsimp only
      rw [this]
      ring

/-- The rotation that carries the north pole to the intersection of the equator and the prime meridian -/
def tiltedAxis : Matrix (Fin 3) (Fin 3) ℝ := !![0, 0, 1; 1, 0, 0; 0, 1, 0]

theorem tiltedAxis_orthogonal : tiltedAxis ∈ orthogonalGroup (Fin 3) ℝ := by
  rw [mem_orthogonalGroup_iff]
  ext i j
  change (tiltedAxis * tiltedAxisᵀ) i j = _
  rw [Matrix.mul_apply, Fin.sum_univ_three]
  fin_cases i <;> fin_cases j <;> simp [tiltedAxis]

theorem tiltedAxis_det : tiltedAxis.det = 1 := by
  rw [Matrix.det_fin_three]
  simp [tiltedAxis]

theorem tiltedAxis_pole (x : ℝ) : unitVec 0 0 = tiltedAxis *ᵥ unitVec x (Real.pi / 2) := by
  funext i
  simp only [Matrix.mulVec, dotProduct, Fin.sum_univ_three]
  fin_cases i <;> simp [tiltedAxis, unitVec]

/-- A planet without rotation -/
noncomputable abbrev still30 : Grid ℝ := { grid30 with omega := 0 }

example : ∃ S : still30.Sph, Spharm.Dealiased (fun _ _ => 1) S ∧ ∃ q q' : still30.Spc, q ≠ q' ∧ ∀ dt tend se sf saved,
    (⟨none, 2, 1, none⟩ : BModel still30).Returns S ⟨.num 0, q⟩ dt tend se sf saved → ∃ sf' saved',
      (⟨none, 2, 1, none⟩ : BModel still30).Returns S ⟨.num 0, q'⟩ dt tend se sf' saved' ∧ ∀ x, sf'.pvFn (fun _ _ => 1) 0 0 = sf.pvFn (fun _ _ => 1) x (Real.pi / 2) := by
  have hn : still30.nlat = 7 := grid30_nlat
  have ht : still30.ntrunc = 2 := rfl
  have hg : still30.Valid := by
    obtain ⟨h1, h2, h3, h4, h5⟩ := grid30_valid
    exact ⟨h1, h2, h3, h4, h5⟩
  have hN : ∀ n m : ℕ, (fun _ _ => 1 : ℕ → ℕ → ℝ) n m ≠ 0 := fun _ _ => one_ne_zero
  obtain ⟨⟨S, h⟩, -⟩ := C119_exists (N := fun _ _ => 1) hg (by rw [hn, ht]; norm_num) hN
  obtain ⟨⟨q', ⟨hq, hq'⟩, -⟩, -⟩ := C154_truncation hN tiltedAxis_orthogonal (solidRotation (fun _ _ => 1) 1 : still30.Spc)
  refine ⟨S, h, solidRotation (fun _ _ => 1) 1, q', fun e => ?_, fun dt tend se sf saved hr => ?_⟩
  · have := hq' 0 (Real.pi / 2) 0 0 (tiltedAxis_pole 0)
    rw [← e, tiltedAxis_det, harmonicSum_solid hN (by rw [ht]; norm_num), harmonicSum_solid hN (by rw [ht]; norm_num)] at this
    norm_num at this
  · have hΩ := (C154_planet still30 tiltedAxis_orthogonal).mpr (.inl rfl)
    have hM : BModel.Turns (g := still30) (fun _ _ => 1) S tiltedAxis ⟨none, 2, 1, none⟩ ⟨none, 2, 1, none⟩ :=
      ⟨rfl, rfl, .inl ⟨rfl, rfl⟩, fun _ => rfl, fun f hf => by cases hf⟩
    obtain ⟨sf', saved', r1, r2⟩ := C154_run hN tiltedAxis_orthogonal hΩ hg h (by rw [ht]; norm_num) (by rw [hn, ht]; norm_num) hM (s := ⟨.num 0, solidRotation (fun _ _ => 1) 1⟩) (s' := ⟨.num 0, q'⟩) rfl hq hq' dt tend se hr
    refine ⟨sf', saved', r1, fun x => ?_⟩
    rcases r2 with _ | ⟨⟨-, r3, -⟩, -⟩
    rw [r3 x (Real.pi / 2) 0 0 (tiltedAxis_pole x), tiltedAxis_det, one_mul]

end Barotropic
