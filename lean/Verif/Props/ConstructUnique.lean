import Verif.Props.ConstructValue

/-!
C83: the specification of the values of configured models (`Spec.ModelValue`) is a function: it
leaves no choice.
-/

namespace Verif.Props
open Verif.Construct Verif.Net Verif.Spec Verif.Slog

variable {K nion d : ℕ} {n : Fin (K + 1) → ℕ}

theorem backflow_unique {c : BackflowCfg} {P : BackflowParams (K + 1)} {i : ℕ} {ws : List (List ℕ)}
    {m₁ m₂ m : ℕ} {x : Stream1 n m₁} {y : Option (Stream2 n m₂)} {z : Stream1 n m}
    (h : BackflowValue c P i ws x y z) : ∀ {m' : ℕ} {z' : Stream1 n m'},
      BackflowValue c P i ws x y z' → (⟨m, z⟩ : Σ m, Stream1 n m) = ⟨m', z'⟩ := by
  induction h with
  | done x y => intro m' z' h'; cases h'; rfl
  | one x y z _ ih => intro m' z' h'; cases h' with | one _ _ _ h' => exact ih h'
  | two x y z _ ih => intro m' z' h'; cases h' with | two _ _ _ h' => exact ih h'

theorem one_input_unique {ions : Fin nion → Fin d → ℝ} {pos : Stream1 n d}
    {x x' : Stream1 n (nion * (d + 1))} (h : OneInput ions pos x) (h' : OneInput ions pos x') :
    x = x' := by
  funext e a
  have ha : a.val = a.divNat.val * (d + 1) + a.modNat.val := by
    simp only [Fin.coe_divNat, Fin.coe_modNat]
    exact (Nat.div_add_mod' _ _).symm
  by_cases hk : a.modNat.val = d
  · rw [h.distance e a.divNat a (by omega), h'.distance e a.divNat a (by omega)]
  · have hk' : a.modNat.val < d := by have := a.modNat.2; omega
    rw [h.displacement e a.divNat ⟨_, hk'⟩ a ha, h'.displacement e a.divNat ⟨_, hk'⟩ a ha]

theorem two_input_unique {c : StreamsCfg} {pos : Stream1 n d}
    {y y' : Option (Stream2 n (if c.includeEeNorm = true then d + 1 else d))}
    (h : TwoInput c pos y) (h' : TwoInput c pos y') : y = y' := by
  cases hc : c.include2eStream with
  | false => rw [h.none hc, h'.none hc]
  | true =>
    obtain ⟨z, rfl, h1, h2⟩ := h.some hc
    obtain ⟨z', rfl, h1', h2'⟩ := h'.some hc
    congr 1
    funext e e' a
    by_cases hk : a.val = d
    · rw [h2 e e' a hk, h2' e e' a hk]
    · have hk' : a.val < d := by
        have := a.2
        split at this <;> omega
      rw [h1 e e' ⟨_, hk'⟩ a rfl, h1' e e' ⟨_, hk'⟩ a rfl]

theorem features_unique {s : StreamsCfg} {c : BackflowCfg} {P : BackflowParams (K + 1)}
    {ions : Fin nion → Fin d → ℝ} {pos : Stream1 n d} {m m' : ℕ} {z : Stream1 n m}
    {z' : Stream1 n m'} (h : Features s c P ions pos z) (h' : Features s c P ions pos z') :
    (⟨m, z⟩ : Σ m, Stream1 n m) = ⟨m', z'⟩ := by
  obtain ⟨x, y, hx, hy, hz⟩ := h
  obtain ⟨x', y', hx', hy', hz'⟩ := h'
  obtain rfl := one_input_unique hx hx'
  obtain rfl := two_input_unique hy hy'
  exact backflow_unique hz hz'

theorem stacked_unique {m : ℕ} {rows : ∀ s, Fin (n s) → Fin m → ℝ}
    {M M' : Matrix (Fin (∑ s, n s)) (Fin m) ℝ} (h : Stacked rows M) (h' : Stacked rows M') :
    M = M' := by
  funext a
  obtain ⟨⟨s, i⟩, rfl⟩ := finSigmaFinEquiv.surjective a
  rw [h s i _ (finSigmaFinEquiv_apply _), h' s i _ (finSigmaFinEquiv_apply _)]

theorem fermi_dets_unique {c : ModelCfg} {P : Params (K + 1) nion d} {ions : Fin nion → Fin d → ℝ}
    {pos : Stream1 n d} {N N' : ℕ} {D : Fin (N + 1) → Fin c.ndeterminants → ℝ}
    {D' : Fin (N' + 1) → Fin c.ndeterminants → ℝ} (h : FermiDets c P ions pos D)
    (h' : FermiDets c P ions pos D') :
    (⟨N, D⟩ : Σ N, Fin (N + 1) → Fin c.ndeterminants → ℝ) = ⟨N', D'⟩ := by
  cases h with
  | split z D hf hz hD =>
    cases h' with
    | split z' D' _ hz' hD' =>
      cases features_unique hz hz'
      congr 1
      funext s i
      rw [hD, hD']
    | full _ _ _ hf' => rw [hf] at hf'; cases hf'
  | full z D M hf hz hM hD =>
    cases h' with
    | split _ _ hf' => rw [hf] at hf'; cases hf'
    | full z' D' M' _ hz' hM' hD' =>
      cases features_unique hz hz'
      congr 1
      funext s i
      rw [hD, hD', stacked_unique (hM i) (hM' i)]

theorem combined_unique {c : ModelCfg} {P : ResNetParams} {N : ℕ}
    {D : Fin (N + 1) → Fin c.ndeterminants → ℝ} {r r' : ℝ} (h : Combined c P D r)
    (h' : Combined c P D r') : r = r' := by
  cases h with
  | plain _ hu => cases h' <;> first | rfl | simp_all
  | covariance _ hu hm => cases h' <;> first | rfl | simp_all
  | parallel _ hu hm => cases h' <;> first | rfl | simp_all
  | pairwise _ hu hm => cases h' <;> first | rfl | simp_all

theorem embedded_unique {h : Fin (K + 1) → ℕ} {pos : Stream1 n d}
    {hidden : ∀ s, Fin (h s) → Fin d → ℝ} {q q' : Stream1 (fun s => n s + h s) d}
    (hq : Embedded pos hidden q) (hq' : Embedded pos hidden q') : q = q' := by
  funext ⟨s, a⟩
  refine Fin.addCases (fun i => ?_) (fun i => ?_) a
  · rw [hq.visible s i _ rfl, hq'.visible s i _ rfl]
  · rw [hq.hidden s i _ rfl, hq'.hidden s i _ rfl]

theorem hidden_positions_unique {c : ModelCfg} {P : Params (K + 1) nion d}
    {ions : Fin nion → Fin d → ℝ} {pos : Stream1 n d}
    {q q' : Stream1 (fun s => n s + hiddenCount K c s) d} (h : HiddenPositions c P ions pos q)
    (h' : HiddenPositions c P ions pos q') : q = q' := by
  obtain ⟨m, z, hz, hq⟩ := h
  obtain ⟨m', z', hz', hq'⟩ := h'
  cases features_unique hz hz'
  exact embedded_unique hq hq'

theorem row_features_unique {c : ModelCfg} {P : Params (K + 1) nion d}
    {ions : Fin nion → Fin d → ℝ} {pos : Stream1 n d} {m m₁ m₂ : ℕ} {z : Stream1 n m}
    {y : Stream1 n m₁} {y' : Stream1 n m₂} (h : RowFeatures c P ions pos z y)
    (h' : RowFeatures c P ions pos z y') : (⟨m₁, y⟩ : Σ m, Stream1 n m) = ⟨m₂, y'⟩ := by
  unfold RowFeatures at h h'
  split at h
  · next hu =>
    rw [if_pos hu] at h'
    exact features_unique h h'
  · next hu =>
    rw [if_neg hu] at h'
    obtain ⟨rfl, h⟩ := h
    obtain ⟨rfl, h'⟩ := h'
    congr 1
    funext e j
    rw [h, h']

theorem extended_rows_unique {c : ModelCfg} {P : Params (K + 1) nion d}
    {ions : Fin nion → Fin d → ℝ} {pos : Stream1 n d} {m m' : ℕ} {z : Stream1 n m}
    {y : Stream1 n m'} {norb : Fin (K + 1) → ℕ} {i : Fin c.ndeterminants} {s : Fin (K + 1)}
    {R R' : Fin (n s + hiddenCount K c s) → Fin (norb s) → ℝ}
    (h : ExtendedRows c P ions pos z y norb i s R) (h' : ExtendedRows c P ions pos z y norb i s R') :
    R = R' := by
  funext b o
  refine Fin.addCases (fun a => ?_) (fun a => ?_) b
  · rw [h.visible a _ rfl, h'.visible a _ rfl]
  · rw [h.hidden a _ rfl, h'.hidden a _ rfl]

theorem extended_dets_unique {c : ModelCfg} {P : Params (K + 1) nion d}
    {ions : Fin nion → Fin d → ℝ} {pos : Stream1 n d} {N N' : ℕ}
    {D : Fin (N + 1) → Fin c.ndeterminants → ℝ} {D' : Fin (N' + 1) → Fin c.ndeterminants → ℝ}
    (h : ExtendedDets c P ions pos D) (h' : ExtendedDets c P ions pos D') :
    (⟨N, D⟩ : Σ N, Fin (N + 1) → Fin c.ndeterminants → ℝ) = ⟨N', D'⟩ := by
  cases h with
  | split z y D M hf hz hy hM hD =>
    cases h' with
    | split z' y' D' M' _ hz' hy' hM' hD' =>
      cases features_unique hz hz'
      cases row_features_unique hy hy'
      congr 1
      funext s i
      rw [hD, hD', extended_rows_unique (hM i s) (hM' i s)]
    | full _ _ _ _ _ hf' => rw [hf] at hf'; cases hf'
  | full z y D R M hf hz hy hR hM hD =>
    cases h' with
    | split _ _ _ _ hf' => rw [hf] at hf'; cases hf'
    | full z' y' D' R' M' _ hz' hy' hR' hM' hD' =>
      cases features_unique hz hz'
      cases row_features_unique hy hy'
      congr 1
      funext s i
      have hRR : R i = R' i := funext fun s => extended_rows_unique (hR i s) (hR' i s)
      rw [hD, hD', stacked_unique (hM i) (hRR ▸ hM' i)]

theorem anti_features_unique {m : ℕ} {c : ModelCfg} {z : Stream1 n m} {v : ∀ s, Fin (n s) → ℝ}
    {m₁ m₂ : ℕ} {a : Stream1 n m₁} {a' : Stream1 n m₂} (h : AntiFeatures c z v a)
    (h' : AntiFeatures c z v a') : (⟨m₁, a⟩ : Σ m, Stream1 n m) = ⟨m₂, a'⟩ := by
  cases h with
  | own a hm ha =>
    cases h' with
    | own a' _ ha' => congr 1; funext ⟨s, i⟩ j; rw [ha, ha']
    | multiplied a' hm' => rw [hm] at hm'; cases hm'
  | multiplied a hm ha =>
    cases h' with
    | own a' hm' => rw [hm] at hm'; cases hm'
    | multiplied a' _ ha' => congr 1; funext ⟨s, i⟩ j; rw [ha, ha']

theorem paired_unique {c : ModelCfg} {P : Params (K + 1) nion d} {m : ℕ} {a : Stream1 n m}
    {r r' : ℝ} (h : Paired c P a r) (h' : Paired c P a r') : r = r' := by
  cases h with
  | products _ hu hw => cases h' <;> first | rfl | simp_all
  | weighted _ hu hw => cases h' <;> first | rfl | simp_all
  | backflow B hu hB =>
    cases h' with
    | products _ hu' => rw [hu] at hu'; cases hu'
    | weighted _ hu' => rw [hu] at hu'; cases hu'
    | backflow B' _ hB' =>
      congr 1
      funext e
      congr 1
      exact congrArg (fun p : Σ m, Stream1 n m => ∑ i, ∑ k, p.2 i k) (backflow_unique (hB e) (hB' e))

theorem exponent_unique {c : ModelCfg} {P : Params (K + 1) nion d} {ions : Fin nion → Fin d → ℝ}
    {charges : Fin nion → ℝ} {pos : Stream1 n d} {m : ℕ} {z : Stream1 n m} {r r' : ℝ}
    (h : Exponent c P ions charges pos z r) (h' : Exponent c P ions charges pos z r') : r = r' := by
  have hb : ∀ {b b' : ℝ}, BackflowExponent c P ions pos z b → BackflowExponent c P ions pos z b' →
      b = b' := by
    intro b b' hb hb'
    unfold BackflowExponent at hb hb'
    split at hb
    · next hu =>
      rw [if_pos hu] at hb'
      obtain ⟨m, y, hy, rfl⟩ := hb
      obtain ⟨m', y', hy', rfl⟩ := hb'
      cases features_unique hy hy'
      rfl
    · next hu =>
      rw [if_neg hu] at hb'
      rw [hb, hb']
  unfold Exponent at h h'
  rcases h with ⟨ht, h⟩ | ⟨ht, h⟩ | ⟨ht, h⟩ | ⟨ht, b, h, hr⟩ <;>
    rcases h' with ⟨ht', h'⟩ | ⟨ht', h'⟩ | ⟨ht', h'⟩ | ⟨ht', b', h', hr'⟩ <;>
    first
    | (rw [ht] at ht'; simp at ht'; done)
    | exact h.trans h'.symm
    | exact hb h h'
    | rw [hr, hr', hb h h']

theorem antisymmetrized_unique {c : ModelCfg} {P : Params (K + 1) nion d} {m : ℕ}
    {z : Stream1 n m} {N N' : ℕ} {t : Fin N → ℝ} {t' : Fin N' → ℝ} (h : Antisymmetrized c P z t)
    (h' : Antisymmetrized c P z t') : (⟨N, t⟩ : Σ N, Fin N → ℝ) = ⟨N', t'⟩ := by
  cases h with
  | factorized t ha ht =>
    cases h' with
    | factorized t' _ ht' => congr 1; funext r; rw [ht, ht']
    | generic t' ha' => rw [ha] at ha'; simp at ha'
  | generic t ha ht =>
    cases h' with
    | factorized t' ha' => rw [ha] at ha'; simp at ha'
    | generic t' _ ht' => congr 1; funext r; rw [ht, ht']

/-- C83: a configuration stands for one value. -/
theorem model_value_unique {c : ModelCfg} {P : Params (K + 1) nion d} {ions : Fin nion → Fin d → ℝ}
    {charges : Fin nion → ℝ} {pos : Stream1 n d} {nz nz' : Prop} {r r' : ℝ}
    (h : ModelValue c P ions charges pos nz r) (h' : ModelValue c P ions charges pos nz' r') :
    (nz ↔ nz') ∧ r = r' := by
  cases h with
  | fermiNet D r ht hD hr =>
    cases h' with
    | fermiNet D' r' _ hD' hr' =>
      cases fermi_dets_unique hD hD'
      exact ⟨Iff.rfl, combined_unique hr hr'⟩
    | embedded _ _ _ ht' => simp [ht] at ht'
    | extended _ _ ht' => simp [ht] at ht'
    | antiequivariance _ _ _ ht' => simp [ht] at ht'
    | explicit _ _ _ ht' => simp [ht] at ht'
  | embedded q D r ht hq hD hr =>
    cases h' with
    | embedded q' D' r' _ hq' hD' hr' =>
      obtain rfl := hidden_positions_unique hq hq'
      cases fermi_dets_unique hD hD'
      exact ⟨Iff.rfl, combined_unique hr hr'⟩
    | fermiNet _ _ ht' => simp [ht] at ht'
    | extended _ _ ht' => simp [ht] at ht'
    | antiequivariance _ _ _ ht' => simp [ht] at ht'
    | explicit _ _ _ ht' => simp [ht] at ht'
  | extended D r ht hD hr =>
    cases h' with
    | extended D' r' _ hD' hr' =>
      cases extended_dets_unique hD hD'
      exact ⟨Iff.rfl, combined_unique hr hr'⟩
    | embedded _ _ _ ht' => simp [ht] at ht'
    | fermiNet _ _ ht' => simp [ht] at ht'
    | antiequivariance _ _ _ ht' => simp [ht] at ht'
    | explicit _ _ _ ht' => simp [ht] at ht'
  | antiequivariance z a r ht hz ha hr =>
    cases h' with
    | antiequivariance z' a' r' _ hz' ha' hr' =>
      cases features_unique hz hz'
      cases anti_features_unique ha ha'
      exact ⟨Iff.rfl, paired_unique hr hr'⟩
    | embedded _ _ _ ht' => simp [ht'] at ht
    | fermiNet _ _ ht' => simp [ht'] at ht
    | extended _ _ ht' => simp [ht'] at ht
    | explicit _ _ _ ht' => simp [ht'] at ht
  | explicit z t j ht hz hj hr =>
    cases h' with
    | explicit z' t' j' _ hz' hj' hr' =>
      cases features_unique hz hz'
      cases antisymmetrized_unique hr hr'
      obtain rfl := exponent_unique hj hj'
      exact ⟨Iff.rfl, rfl⟩
    | embedded _ _ _ ht' => simp [ht] at ht'
    | fermiNet _ _ ht' => simp [ht] at ht'
    | extended _ _ ht' => simp [ht] at ht'
    | antiequivariance _ _ _ ht' => simp [ht] at ht'

/-- C83: a model built from a configuration computes the function which the configuration stands
for: every value returned represents the value of the specification (in the sum of determinants
or of antisymmetrized products one term must not vanish). -/
theorem configured_model_computes_partial (c : ModelCfg) (ions : Fin nion → Fin d → ℝ)
    (charges : Fin nion → ℝ) (dtype : ℕ) (m : Model nion)
    (hm : getModelFromConfig c (counts n) ions charges dtype = .ok m) (P : Params (K + 1) nion d)
    (pos : Stream1 n d) (v : SL) (hv : m.apply P ions pos = .ok v) (nonzero : Prop) (r : ℝ)
    (hr : ModelValue c P ions charges pos nonzero r) (h : nonzero) : Represents v r := by
  obtain ⟨nz, r', h1, h2⟩ := configured_model_value c ions charges dtype m hm P pos v hv
  obtain ⟨hnz, rfl⟩ := model_value_unique hr h1
  exact h2 (hnz.mp h)

/-- The default FermiNet with one electron of each kind, orbitals with kernels 0 and biases 2 and 3
and envelopes which do not decay: it can be built and called, and gives `2 * 3`. -/
example (P : Params 2 1 3) (pos : Stream1 (fun _ : Fin 2 => 1) 3) :
    ∃ m : Model 1, getModelFromConfig {} (counts fun _ : Fin 2 => 1)
        (fun (_ : Fin 1) (_ : Fin 3) => (0 : ℝ)) (fun _ => 2) 32 = .ok m ∧
      ∃ p, m.apply { P with orbitals := fun _ _ =>
          ⟨fun _ _ _ => 0, fun s _ => s.val + 2, fun _ _ => 0, fun _ _ _ _ _ => 0, fun _ _ _ => 1,
            0, true, true⟩ } (fun _ _ => 0) pos = .ok p ∧ Represents p 6 := by
  obtain ⟨m, hm⟩ := (model_config_accepted_iff {} (counts fun _ : Fin 2 => 1)
    (fun (_ : Fin 1) (_ : Fin 3) => (0 : ℝ)) (fun _ => 2) 32).mpr
    (by rw [counts_length]; exact default_acceptable "ferminet" (by simp))
  let P' : Params 2 1 3 := { P with orbitals := fun _ _ =>
          ⟨fun _ _ _ => 0, fun s _ => s.val + 2, fun _ _ => 0, fun _ _ _ _ _ => 0, fun _ _ _ => 1,
            0, true, true⟩ }
  obtain ⟨p, hp⟩ := (configured_model_callable_iff {} _ _ _ m hm ⟨rfl, fun _ => rfl⟩
    (by simp) P' pos).mpr (by
      left
      refine ⟨rfl, .inr (by simp), ?_⟩
      simp [Spec.PairsWithoutTwo])
  refine ⟨m, hm, p, hp, ?_⟩
  obtain ⟨nz, r, hr, h⟩ := configured_model_value {} _ _ _ m hm P' pos p hp
  cases hr with
  | fermiNet D r _ hD hr =>
    cases hD with
    | full _ _ _ hf => cases hf
    | split z D _ _ hD =>
      have hD : ∀ s i, D s i = s.val + 2 := by
        intro s i
        rw [hD, Matrix.det_unique]
        simp [orbitalValue, envelopeValue, P']
      cases hr with
      | plain _ _ =>
        have : ∑ i, ∏ s, D s i = (6 : ℝ) := by
          simp [hD, Fin.prod_univ_two]
          norm_num
        rw [← this]
        exact h fun _ => ⟨0, by simp [hD, Fin.prod_univ_two]; norm_num⟩
      | covariance _ hu _ => cases hu
      | parallel _ hu _ => cases hu
      | pairwise _ hu _ => cases hu
  | embedded _ _ _ ht => simp at ht
  | extended _ _ ht => simp at ht
  | antiequivariance _ _ _ ht => simp at ht
  | explicit _ _ _ ht => simp at ht

end Verif.Props
