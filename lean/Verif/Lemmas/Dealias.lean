import Verif.Spec.Dealias
import Verif.Props.Conservation

/-!
# Truncation of spectral fields and transforms
-/

namespace Barotropic

variable {T T' : ℕ} {N : ℕ → ℕ → ℝ}

theorem exists_index {m n : ℕ} (hm : m ≤ n) (hn : n ≤ T) : ∃ k : Fin (nspec T), specM k = m ∧ specN k = n := by
  obtain ⟨k, hk⟩ := List.mem_iff_get.mp ((mem_specIndex (T := T) (p := (m, n))).mpr ⟨hm, hn⟩)
  exact ⟨k, congrArg Prod.fst hk, congrArg Prod.snd hk⟩

theorem coeffAt_eq (s : SpecField T) (k : Fin (nspec T)) : coeffAt s (specM k) (specN k) = s k := by
  unfold coeffAt
  rw [Finset.sum_eq_single k]
  · simp
  · intro l _ hl
    exact if_neg fun h => hl (specIndex_inj h.1 h.2)
  · simp

theorem coeffAt_zero (s : SpecField T) {m n : ℕ} (h : ¬(m ≤ n ∧ n ≤ T)) : coeffAt s m n = 0 := by
  unfold coeffAt
  refine Finset.sum_eq_zero fun k _ => if_neg ?_
  rintro ⟨rfl, rfl⟩
  exact h ⟨specM_le_specN k, specN_le k⟩

theorem retrunc_apply (s : SpecField T) {k : Fin (nspec T')} {l : Fin (nspec T)} (hm : specM l = specM k) (hn : specN l = specN k) :
    retrunc T' s k = s l := by
  unfold retrunc
  rw [← hm, ← hn, coeffAt_eq]

theorem retrunc_zero_of (s : SpecField T) {k : Fin (nspec T')} (h : T < specN k) : retrunc T' s k = 0 :=
  coeffAt_zero s (by omega)

/-- Coefficientwise maps that depend on order and degree -/
theorem retrunc_map (s s' : SpecField T) (c : ℕ → ℕ → ℂ → ℂ) (h0 : ∀ m n, c m n 0 = 0) (h : ∀ k, s' k = c (specM k) (specN k) (s k))
    (k : Fin (nspec T')) : retrunc T' s' k = c (specM k) (specN k) (retrunc T' s k) := by
  by_cases hk : specN k ≤ T
  · obtain ⟨l, hm, hn⟩ := exists_index (specM_le_specN k) hk
    rw [retrunc_apply s' hm hn, retrunc_apply s hm hn, h, hm, hn]
  · rw [retrunc_zero_of s' (by omega), retrunc_zero_of s (by omega), h0]

theorem retrunc_add (s s' : SpecField T) : retrunc T' (s + s') = retrunc T' s + retrunc T' s' := by
  funext k
  by_cases hk : specN k ≤ T
  · obtain ⟨l, hm, hn⟩ := exists_index (specM_le_specN k) hk
    simp only [Pi.add_apply, retrunc_apply _ hm hn]
  · simp only [Pi.add_apply, retrunc_zero_of _ (by omega : T < specN k), add_zero]

theorem retrunc_sub (s s' : SpecField T) : retrunc T' (s - s') = retrunc T' s - retrunc T' s' := by
  funext k
  by_cases hk : specN k ≤ T
  · obtain ⟨l, hm, hn⟩ := exists_index (specM_le_specN k) hk
    simp only [Pi.sub_apply, retrunc_apply _ hm hn]
  · simp only [Pi.sub_apply, retrunc_zero_of _ (by omega : T < specN k), sub_zero]

theorem retrunc_smul (c : ℝ) (s : SpecField T) : retrunc T' (c • s) = c • retrunc T' s := by
  funext k
  exact retrunc_map s (c • s) (fun _ _ z => c • z) (fun _ _ => smul_zero _) (fun _ => rfl) k

theorem retrunc_zero : retrunc T' (0 : SpecField T) = 0 := by
  funext k
  unfold retrunc coeffAt
  simp

theorem retrunc_degMul (c : ℕ → ℝ) (s : SpecField T) : retrunc T' (degMul c s) = degMul c (retrunc T' s) := by
  funext k
  exact retrunc_map s (degMul c s) (fun _ n z => (c n : ℂ) * z) (fun _ _ => mul_zero _) (fun _ => rfl) k

theorem retrunc_invLaplace (r : ℝ) (s : SpecField T) : retrunc T' (invLaplace r s) = invLaplace r (retrunc T' s) := retrunc_degMul _ s

theorem retrunc_dropMean (s : SpecField T) : retrunc T' (dropMean s) = dropMean (retrunc T' s) := by
  funext k
  exact retrunc_map s (dropMean s) (fun _ n z => if n = 0 then 0 else z) (fun _ _ => by simp) (fun _ => rfl) k

theorem retrunc_timesI (s : SpecField T) : retrunc T' (timesI s) = timesI (retrunc T' s) := by
  funext k
  exact retrunc_map s (timesI s) (fun _ _ z => Complex.I * z) (fun _ _ => mul_zero _) (fun _ => rfl) k

theorem retrunc_phase (nlon d : ℕ) (s : SpecField T) : retrunc T' (phaseShift nlon d s) = phaseShift nlon d (retrunc T' s) := by
  funext k
  exact retrunc_map s (phaseShift nlon d s) (fun m _ z => Complex.exp (2 * Real.pi * Complex.I * (m * d / nlon)) * z) (fun _ _ => mul_zero _) (fun _ => rfl) k

theorem retrunc_solid (hT : 1 ≤ T) (W : ℝ) : retrunc T' (solidRotation N W : SpecField T) = solidRotation N W := by
  funext k
  by_cases hk : specN k ≤ T
  · obtain ⟨l, hm, hn⟩ := exists_index (specM_le_specN k) hk
    rw [retrunc_apply _ hm hn]
    simp only [solidRotation, hm, hn]
  · rw [retrunc_zero_of _ (by omega)]
    unfold solidRotation
    rw [if_neg (by omega)]

theorem retrunc_real {s : SpecField T} (h : RealZonal s) : RealZonal (retrunc T' s) := by
  intro k hk
  by_cases hn : specN k ≤ T
  · obtain ⟨l, hl, hl'⟩ := exists_index (specM_le_specN k) hn
    rw [retrunc_apply _ hl hl']
    exact h l (hl.trans hk)
  · rw [retrunc_zero_of _ (by omega)]; rfl

theorem retrunc_band {B : ℕ} {s : SpecField T} (h : BandLimited B s) : BandLimited B (retrunc T' s) := by
  intro k hk
  by_cases hn : specN k ≤ T
  · obtain ⟨l, hl, hl'⟩ := exists_index (specM_le_specN k) hn
    rw [retrunc_apply _ hl hl']
    exact h l (hl' ▸ hk)
  · exact retrunc_zero_of _ (by omega)

theorem retrunc_band_self (s : SpecField T) : BandLimited T (retrunc T' s) := fun _ hk => retrunc_zero_of s hk

/-- Back and forth -/
theorem retrunc_retrunc (h : T ≤ T') (s : SpecField T) : retrunc T (retrunc T' s) = s := by
  funext k
  obtain ⟨l, hm, hn⟩ := exists_index (T := T') (specM_le_specN k) ((specN_le k).trans h)
  rw [retrunc_apply _ hm hn, retrunc_apply s hm.symm hn.symm]

theorem modeSum_retrunc (P : ℕ → ℕ → ℝ → ℝ) (h : T ≤ T') (s : SpecField T) (x y : ℝ) :
    modeSum N P (retrunc T' s) x y = modeSum N P s x y := by
  have hι : ∀ k : Fin (nspec T), ∃ l : Fin (nspec T'), specM l = specM k ∧ specN l = specN k := fun k =>
    exists_index (specM_le_specN k) ((specN_le k).trans h)
  choose ι hm hn using hι
  have hinj : Function.Injective ι := fun a b e => specIndex_inj (by rw [← hm, ← hm, e]) (by rw [← hn, ← hn, e])
  unfold modeSum
  rw [← Finset.sum_subset (Finset.subset_univ (Finset.univ.map ⟨ι, hinj⟩)), Finset.sum_map]
  · refine Finset.sum_congr rfl fun k _ => ?_
    simp only [Function.Embedding.coeFn_mk, retrunc_apply s (hm k).symm (hn k).symm, hm, hn]
  · intro l _ hl
    have : T < specN l := by
      by_contra hc
      obtain ⟨k, h1, h2⟩ := exists_index (T := T) (specM_le_specN l) (by omega)
      exact hl (Finset.mem_map.mpr ⟨k, Finset.mem_univ _, specIndex_inj ((hm k).trans h1) ((hn k).trans h2)⟩)
    rw [retrunc_zero_of s this]
    simp

theorem harmonicSum_retrunc (h : T ≤ T') (s : SpecField T) (x y : ℝ) : harmonicSum N (retrunc T' s) x y = harmonicSum N s x y :=
  modeSum_retrunc _ h s x y

theorem phiDeriv_retrunc (h : T ≤ T') (s : SpecField T) (x y : ℝ) : phiDeriv N (retrunc T' s) x y = phiDeriv N s x y :=
  modeSum_retrunc _ h s x y

theorem lamDeriv_retrunc (h : T ≤ T') (s : SpecField T) (x y : ℝ) : lamDeriv N (retrunc T' s) x y = lamDeriv N s x y := by
  unfold lamDeriv
  rw [← retrunc_timesI, modeSum_retrunc _ h]

/-! ## Transforms -/

variable {g : Grid ℝ} {S : g.Sph}

/-- The truncation of an exact transform is exact. -/
theorem exact_withTrunc {B : ℕ} (hT : g.ntrunc ≤ T') {S' : (g.withTrunc T').Sph} (h : Spharm.Exact N B S') :
    Spharm.Exact (g := g) N B (S'.withTrunc g.ntrunc) := by
  refine ⟨h.norm_ne, fun s => ?_, fun s => ?_, fun a b => ?_, fun f => retrunc_real (h.analysis_real f), fun s hs hb => ?_, fun f f' => ?_, fun c f => ?_,
    fun d f => ?_, fun a b ha hb ha' hb' => ?_, fun u u' v v' => ?_, fun c u v => ?_, fun d u v => ?_, fun u v k hk => ?_, fun u hu => ?_⟩
  · refine (h.synthesis _).trans ?_
    funext j i
    exact harmonicSum_retrunc hT s _ _
  · refine (h.gradient _).trans (Prod.ext ?_ ?_)
    · funext j i
      exact congrArg (· / g.rsphere) (lamDeriv_retrunc hT s _ _)
    · funext j i
      exact congrArg (· / g.rsphere) (phiDeriv_retrunc hT s _ _)
  · refine (h.wind _ _).trans (Prod.ext ?_ ?_)
    · funext j i
      simp only [Grid.sample, ← retrunc_invLaplace]
      exact congrArg (· / g.rsphere) (congrArg₂ (fun x y => -x + y) (phiDeriv_retrunc hT _ _ _) (lamDeriv_retrunc hT _ _ _))
    · funext j i
      simp only [Grid.sample, ← retrunc_invLaplace]
      exact congrArg (· / g.rsphere) (congrArg₂ (fun x y => x + y) (lamDeriv_retrunc hT _ _ _) (phiDeriv_retrunc hT _ _ _))
  · change retrunc _ (S'.grdtospec (S'.spectogrd (retrunc _ s))) = s
    rw [h.analysis _ (retrunc_real hs) (retrunc_band hb)]
    exact retrunc_retrunc hT s
  · exact (congrArg (retrunc g.ntrunc) (h.analysis_add f f')).trans (retrunc_add _ _)
  · exact (congrArg (retrunc g.ntrunc) (h.analysis_smul c f)).trans (retrunc_smul _ _)
  · exact (congrArg (retrunc g.ntrunc) (h.analysis_rotate d f)).trans (retrunc_phase ..)
  · have e := h.vrtdiv _ _ (retrunc_real ha) (retrunc_real hb) (retrunc_band ha') (retrunc_band hb')
    change (retrunc _ (S'.getvrtdivspec (S'.getuv (retrunc _ a) (retrunc _ b)).1 (S'.getuv (retrunc _ a) (retrunc _ b)).2).1,
      retrunc _ (S'.getvrtdivspec (S'.getuv (retrunc _ a) (retrunc _ b)).1 (S'.getuv (retrunc _ a) (retrunc _ b)).2).2) = _
    rw [e]
    refine Prod.ext ?_ ?_
    · exact (retrunc_dropMean _).trans (congrArg dropMean (retrunc_retrunc hT a))
    · exact (retrunc_dropMean _).trans (congrArg dropMean (retrunc_retrunc hT b))
  · have e := h.vrtdiv_add u u' v v'
    exact Prod.ext ((congrArg (fun p => retrunc g.ntrunc (Prod.fst p)) e).trans (retrunc_add _ _))
      ((congrArg (fun p => retrunc g.ntrunc (Prod.snd p)) e).trans (retrunc_add _ _))
  · have e := h.vrtdiv_smul c u v
    exact Prod.ext ((congrArg (fun p => retrunc g.ntrunc (Prod.fst p)) e).trans (retrunc_smul _ _))
      ((congrArg (fun p => retrunc g.ntrunc (Prod.snd p)) e).trans (retrunc_smul _ _))
  · have e := h.vrtdiv_rotate d u v
    exact Prod.ext ((congrArg (fun p => retrunc g.ntrunc (Prod.fst p)) e).trans (retrunc_phase ..))
      ((congrArg (fun p => retrunc g.ntrunc (Prod.snd p)) e).trans (retrunc_phase ..))
  · obtain ⟨l, hm, hn⟩ := exists_index (T := T') (specM_le_specN k) ((specN_le k).trans hT)
    have e := h.vrtdiv_mean u v l (hn.trans hk)
    exact ⟨(retrunc_apply _ hm hn).trans e.1, (retrunc_apply _ hm hn).trans e.2⟩
  · have e := h.vrtdiv_zonal u hu
    exact (congrArg (retrunc g.ntrunc) e).trans retrunc_zero

theorem withTrunc_valid (hg : g.Valid) {T : ℕ} (hT : T + 1 ≤ g.nlat) : (g.withTrunc T).Valid :=
  ⟨hg.res_pos, hg.rsphere_pos, hg.nlon_ge, hg.nlat_ge, by change T ≤ g.nlat - 1; omega⟩

/-- A dealiased transform is exact up to its truncation. -/
theorem Spharm.Dealiased.exact (h : Spharm.Dealiased N S) : Spharm.Exact N g.ntrunc S := by
  obtain ⟨S', h', rfl⟩ := h
  have e := exact_withTrunc (g := g) (by omega) h'
  exact { e with
    analysis := fun s hs hb => e.analysis s hs fun k hk => by have := specN_le k; omega
    vrtdiv := fun a b ha hb _ _ => e.vrtdiv a b ha hb (fun k hk => by have := specN_le k; omega) fun k hk => by have := specN_le k; omega }

/-- There are dealiased transforms on grids with more than twice as many latitudes as degrees. -/
theorem exists_dealiased (hg : g.Valid) (hT : 2 * g.ntrunc + 2 ≤ g.nlat) (hN : ∀ n m, N n m ≠ 0) : ∃ S : g.Sph, Spharm.Dealiased N S := by
  obtain ⟨S', h, -⟩ := exists_exact (g := g.withTrunc (2 * g.ntrunc)) (N := N) (B := 2 * g.ntrunc) (withTrunc_valid hg (by omega)) hT hN
  exact ⟨_, S', h, rfl⟩

/-! ## The flux -/

variable {τ : Type}

/-- The state with another truncation -/
noncomputable def St.withTrunc (T : ℕ) (s : St τ g) : St τ (g.withTrunc T) := ⟨s.time, retrunc T s.q⟩

/-- The flux of the truncated state is the truncated flux. -/
theorem flux_withTrunc {B : ℕ} (h1 : 1 ≤ g.ntrunc) (hB : 1 ≤ B) (hT : g.ntrunc ≤ T') {S' : (g.withTrunc T').Sph} (h : Spharm.Exact N B S')
    (hS : S = S'.withTrunc g.ntrunc) (s : St τ g) :
    (s.withTrunc T').vorticitySpectral S' = retrunc T' (s.vorticitySpectral S) ∧
    s.pvFluxSpectral S = retrunc g.ntrunc ((s.withTrunc T').pvFluxSpectral S') := by
  subst hS
  have e : (s.withTrunc T').vorticitySpectral S' = retrunc T' (s.vorticitySpectral (S'.withTrunc g.ntrunc)) := by
    unfold St.vorticitySpectral
    rw [h.fcor2 (h1.trans hT) hB, (exact_withTrunc hT h).fcor2 h1 hB, retrunc_sub, retrunc_solid h1]
    rfl
  refine ⟨e, ?_⟩
  have ew : s.invertPv (S'.withTrunc g.ntrunc) = (s.withTrunc T').invertPv S' := by
    change S'.getuv (retrunc T' (s.vorticitySpectral (S'.withTrunc g.ntrunc))) (retrunc T' 0) = S'.getuv _ 0
    rw [e, retrunc_zero]
  have eu : s.u (S'.withTrunc g.ntrunc) = (s.withTrunc T').u S' := congrArg Prod.fst ew
  have ev : s.v (S'.withTrunc g.ntrunc) = (s.withTrunc T').v S' := congrArg Prod.snd ew
  unfold St.pvFluxSpectral
  rw [eu, ev]
  rfl

end Barotropic
