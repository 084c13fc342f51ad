import Verif.Lemmas.ArrayViewsAntieqNet
import Verif.Props.BatchedNets

/-!
What the array code of the antiequivariance networks returns for a batch of walkers.
-/

namespace Verif.Props
open Verif.Arrays Verif.Slog Verif.Construct Verif.Net Equiv

variable {K M d : ℕ} {n : Fin (K + 1) → ℕ}

/-- The array code of an antiequivariance network with the parameters `P`. -/
noncomputable abbrev antiequivarianceOf (n : Fin (K + 1) → ℕ) (ss : List ℤ) (s : StreamsDesc)
    (bs : List BlockDesc) (pp : Bool) (o : OrbitalDesc) (v : CovarianceDesc) (m : Bool)
    (P : Params (K + 1) (M + 1) d) (ions : Fin (M + 1) → Fin d → ℝ) (X : Arr ℝ) : Except String (Arr SL) :=
  antiequivarianceA ss s bs pp ss o v m (blocksA P.backflow 0 bs (inWidths (M + 1) d s.includeEeNorm))
    (antieqLayerParams pp P (outWidths bs (inWidths (M + 1) d s.includeEeNorm)).1 n)
    (covarianceParams P (multiplyWidth m (outWidths bs (inWidths (M + 1) d s.includeEeNorm)).1) n) (A2 ions) X

/-- C110: the array code of the antiequivariance networks computes the function of the per-walker model for
every walker of every batch. -/
theorem antiequivariance_computes_per_walker (ss : List ℤ) (s : StreamsDesc) (bs : List BlockDesc) (pp : Bool)
    (o : OrbitalDesc) (v : CovarianceDesc) (m : Bool) (P : Params (K + 1) (M + 1) d)
    (hs : ss = Split.getSpinSplit (counts n)) (hb : BlocksMatch (counts n) bs)
    (hv : ∀ cfg ks dt, v = .backflow cfg ks dt →
      ∃ bs, getBackflow cfg ks dt = .ok bs ∧ BlocksMatch (counts n) bs)
    (hei : s.includeEiNorm = true) (hN : ∑ s, n s ≠ 0) (ions : Fin (M + 1) → Fin d → ℝ) :
    Spec.ComputesPerWalker (n := n) (antiequivarianceOf n ss s bs pp o v m P ions)
      (applyAntiequivariance ss s bs pp o v m P ions) :=
  computes_of_on
    (fun _ _ _ _ h => on_antiequivariance (ions := A2 ions) rfl ss s hei bs pp ss o v m _ _ _ h)
    (antiequivariance_one ss s bs pp o v m P hs hb hv hei hN ions)

/-- The code returns only if the configuration of a backflow in the covariance can be parsed. -/
theorem antiequivariance_returns_parsed {ss ss' : List ℤ} {s : StreamsDesc} {bs : List BlockDesc} {pp : Bool}
    {o : OrbitalDesc} {cfg : BackflowCfg} {ks : List ℤ} {dt : ℕ} {m : Bool} {P : ℕ → BlockA} {L : OrbitalsA}
    {C : CovarianceA} {ions X : Arr ℝ} {Y : Arr SL}
    (h : antiequivarianceA ss s bs pp ss' o (.backflow cfg ks dt) m P L C ions X = .ok Y) :
    ∃ bs, getBackflow cfg ks dt = .ok bs := by
  unfold antiequivarianceA at h
  rw [bind_eq_ok] at h
  obtain ⟨⟨a, b, c, _⟩, _, h⟩ := h
  simp only [bind_eq_ok] at h
  obtain ⟨_, _, _, _, _, _, cov, hc, _⟩ := h
  simp only [covarianceA, bind_eq_ok] at hc
  obtain ⟨odd, ho, _⟩ := hc
  unfold signCovariantA backflowEquivarianceA at ho
  simp only [bind_eq_ok] at ho
  obtain ⟨_, _, _, ⟨_, _, bs, hbs, _⟩, _⟩ := ho
  exact ⟨bs, hbs⟩

/-- An antiequivariance network built from a configuration returns, for every walker of a batch, a
representation of the value which the configuration stands for. -/
theorem configured_antiequivariance_on_batches (c : ModelCfg) (ions : Fin (M + 1) → Fin d → ℝ)
    (charges : Fin (M + 1) → ℝ) (dtype : ℕ) (ss : List ℤ) (s : StreamsDesc) (bs : List BlockDesc) (pp : Bool)
    (ss' : List ℤ) (o : OrbitalDesc) (v : CovarianceDesc) (m : Bool)
    (hm : getModelFromConfig c (counts n) ions charges dtype = .ok (.antiequivariance ss s bs pp ss' o v m))
    (hei : c.inputStreams.includeEiNorm = true) (hN : ∑ s, n s ≠ 0)
    (P : Params (K + 1) (M + 1) d) {B : List ℕ} {X : Arr ℝ} (hX : X.shape = d :: (∑ s, n s) :: B)
    {Y : Arr SL} (hY : antiequivarianceOf n ss s bs pp o v m P ions X = .ok Y) {b : List ℕ} (hb : Ix b B) :
    Y.shape = B ∧ ∃ (nonzero : Prop) (r : ℝ),
      Spec.ModelValue c P ions charges (Spec.walkerOf X b : Stream1 n d) nonzero r ∧
        (nonzero → Spec.Represents (Y.get b) r) := by
  have hmatch := configured_model_splits_match c _ ions charges dtype _ hm
  have hmeans := configured_model_means_partial c _ ions charges dtype _ hm
  cases hmeans with
  | antiequivariance _ _ _ _ _ _ ht hstr _ _ _ _ =>
    have he : s.includeEiNorm = true := by rw [hstr.ei, hei]
    have hv : ∀ cfg ks dt, v = .backflow cfg ks dt →
        ∃ bs, getBackflow cfg ks dt = .ok bs ∧ BlocksMatch (counts n) bs := by
      rintro cfg ks dt rfl
      obtain ⟨bs', h⟩ := antiequivariance_returns_parsed hY
      have h4 : ks = Split.getSpinSplit (counts n) := hmatch.2.2.2
      subst h4
      exact ⟨bs', h, blocks_match_of_get _ _ _ _ h⟩
    obtain ⟨e, h3, _⟩ | ⟨Z, h3, h4, h5⟩ :=
      antiequivariance_computes_per_walker _ s bs pp o v m P hmatch.1 hmatch.2.2.1 hv he hN ions B X hX b hb
    · rw [hY] at h3; cases h3
    · rw [hY] at h3
      cases h3
      refine ⟨h4, configured_model_value c ions charges dtype _ hm P _ _ ?_⟩
      unfold Model.apply
      rw [if_neg (by simpa using hmatch), if_neg (by simpa [Model.EiNorms] using he)]
      exact h5

/-- Permuting the electrons of each walker in its own way, unless the products have weights for single pairs
of electrons. -/
theorem antiequivariance_batches_antisymmetric (ss : List ℤ) (s : StreamsDesc) (bs : List BlockDesc) (pp : Bool)
    (o : OrbitalDesc) (v : CovarianceDesc) (hw : CovarianceDesc.Unweighted v) (m : Bool)
    (P : Params (K + 1) (M + 1) d) (hs : ss = Split.getSpinSplit (counts n)) (hb : BlocksMatch (counts n) bs)
    (hv : ∀ cfg ks dt, v = .backflow cfg ks dt →
      ∃ bs, getBackflow cfg ks dt = .ok bs ∧ BlocksMatch (counts n) bs)
    (hei : s.includeEiNorm = true) (hN : ∑ s, n s ≠ 0) (ions : Fin (M + 1) → Fin d → ℝ)
    {B : List ℕ} {X X' : Arr ℝ} (hX : X.shape = d :: (∑ s, n s) :: B)
    (hX' : X'.shape = d :: (∑ s, n s) :: B) (π : List ℕ → ∀ s, Perm (Fin (n s)))
    (hp : ∀ b, Ix b B → (Spec.walkerOf X' b : Stream1 n d) = permute1 (π b) (Spec.walkerOf X b))
    {Y : Arr SL} (hY : antiequivarianceOf n ss s bs pp o v m P ions X = .ok Y) (hB : 0 ∉ B) :
    ∃ Y', antiequivarianceOf n ss s bs pp o v m P ions X' = .ok Y' ∧ Y'.shape = B ∧
      ∀ b, Ix b B → Y'.get b = signTimes (totalParity (π b)) (Y.get b) :=
  batches_antisymmetric (antiequivariance_computes_per_walker ss s bs pp o v m P hs hb hv hei hN ions)
    (antiequivariance_desc_antisymmetric ss s bs pp o v hw m P ions) hX hX' π hp hY hB

/-! ### Examples -/

/-- The default antiequivariance networks of both kinds, and those with a sign-symmetrized backflow, for three
electrons around one nucleus, called on four times five walkers: they return twenty numbers, each of which is the
value of the configuration for its walker. -/
example (t : String) (ht : t = "orbital_cofactor_net" ∨ t = "per_particle_dets_net") (products : Bool)
    (P : Params 2 1 3) (X : Arr ℝ) (hX : X.shape = [3, 3, 5, 4]) :
    ∃ ss s bs pp ss' o v m, getModelFromConfig { type := t, useProductsCovariance := products }
        (counts (![2, 1] : Fin 2 → ℕ)) (fun (_ : Fin 1) (_ : Fin 3) => (0 : ℝ)) (fun _ => 3) 32 =
          .ok (.antiequivariance ss s bs pp ss' o v m) ∧
      ∃ Y, antiequivarianceOf ![2, 1] ss s bs pp o v m P (fun _ _ => 0) X = .ok Y ∧ Y.shape = [5, 4] ∧
        ∀ b, Ix b [5, 4] → ∃ (nonzero : Prop) (r : ℝ),
          Spec.ModelValue { type := t, useProductsCovariance := products } P (fun _ _ => 0) (fun _ => 3)
            (Spec.walkerOf X b : Stream1 (![2, 1] : Fin 2 → ℕ) 3) nonzero r ∧
            (nonzero → Spec.Represents (Y.get b) r) := by
  have hbf : Spec.BackflowOk ({} : ModelCfg).invarianceBackflow := by
    constructor <;> simp [Spec.KernelName, Spec.BiasName, Spec.ActivationName]
  obtain ⟨m, hm⟩ := (model_config_accepted_iff { type := t, useProductsCovariance := products }
    (counts (![2, 1] : Fin 2 → ℕ)) (fun (_ : Fin 1) (_ : Fin 3) => (0 : ℝ)) (fun _ => 3) 32).mpr (by
      rw [counts_length]
      refine ⟨default_backflow_ok, ?_⟩
      right; right; right; left
      exact ⟨ht, by simp [Spec.OrbitalsOk, Spec.KernelName, Spec.BiasName], fun _ => by simp [Spec.KernelName]⟩)
  have hX' : X.shape = 3 :: (∑ s, (![2, 1] : Fin 2 → ℕ) s) :: [5, 4] := hX
  obtain ⟨p, hp⟩ := (configured_model_callable_iff _ _ _ _ m hm
    ⟨rfl, fun h => by rcases ht with rfl | rfl <;> exact absurd h (by simp)⟩
    (by intro s; fin_cases s <;> simp) P (Spec.walkerOf X [0, 0])).mpr (by
      right; right; right; left
      exact ⟨ht, by simp, fun _ => rfl, fun _ => hbf⟩)
  have hmatch := configured_model_splits_match _ _ _ _ _ _ hm
  cases configured_model_means_partial _ _ _ _ _ _ hm with
  | fermiNet _ h => rcases ht with rfl | rfl <;> exact absurd h (by simp)
  | embedded _ _ _ _ _ _ h => rcases ht with rfl | rfl <;> exact absurd h (by simp)
  | extended _ _ _ _ h => rcases ht with rfl | rfl <;> exact absurd h (by simp)
  | explicit _ _ _ _ _ h => rcases ht with rfl | rfl <;> exact absurd h (by simp)
  | antiequivariance s bs pp o v mu _ hstr =>
    have he : s.includeEiNorm = true := by rw [hstr.ei]
    have h0 : Ix [0, 0] [5, 4] := .cons (by decide) (.cons (by decide) .nil)
    unfold Model.apply at hp
    rw [if_neg (by simpa using hmatch), if_neg (by simpa [Model.EiNorms] using he)] at hp
    have hv : ∀ cfg ks dt, v = .backflow cfg ks dt →
        ∃ bs, getBackflow cfg ks dt = .ok bs ∧ BlocksMatch (counts (![2, 1] : Fin 2 → ℕ)) bs := by
      rintro cfg ks dt rfl
      have hp' := hp
      simp only [applyAntiequivariance, bind_eq_ok] at hp'
      obtain ⟨_, _, C, hC, _⟩ := hp'
      have h4 : ks = Split.getSpinSplit (counts (![2, 1] : Fin 2 → ℕ)) := hmatch.2.2.2
      simp only [CovarianceDesc.build] at hC
      cases hg : getBackflow cfg ks dt with
      | error e => rw [hg] at hC; cases hC
      | ok bs' =>
        subst h4
        exact ⟨bs', rfl, blocks_match_of_get _ _ _ _ hg⟩
    obtain ⟨e, _, h2⟩ | ⟨Y, h1, h2, _⟩ := antiequivariance_computes_per_walker _ s bs pp o v mu P hmatch.1
      hmatch.2.2.1 hv he (by decide) (fun _ _ => 0) [5, 4] X hX' [0, 0] h0
    · rw [show applyAntiequivariance _ s bs pp o v mu P (fun _ _ => 0) (Spec.walkerOf X [0, 0]) = .ok p from hp]
        at h2
      cases h2
    · exact ⟨_, s, bs, pp, _, o, v, mu, hm, Y, h1, h2, fun b hb =>
        (configured_antiequivariance_on_batches _ _ _ 32 _ s bs pp _ o v mu hm rfl (by decide) P hX' h1 hb).2⟩

end Verif.Props
