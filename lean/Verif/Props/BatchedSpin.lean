import Verif.Model.BatchedSpin
import Verif.Props.BatchedEpoch
import Verif.Props.Spin

/-!
The spin-square estimator on arrays of walkers.
-/

namespace Verif.Props
open Verif.Arrays Verif.Phys Verif.Spec Verif.Construct Verif.Net Verif.Energy Verif.Slog

variable {W N d : ℕ}

theorem swappedList_get {a : ℕ} (ha : a < N) (e : Fin N) :
    (swappedList N a).getD e.val 0 = (Equiv.swap (⟨0, by omega⟩ : Fin N) ⟨a, ha⟩ e).val := by
  unfold swappedList
  rw [List.getD_eq_getElem _ _ (by simp), List.getElem_set, List.getElem_set]
  by_cases h : a = e.val
  · obtain rfl : e = ⟨a, ha⟩ := Fin.ext h.symm
    simp
  · by_cases h' : 0 = e.val
    · have he : e = ⟨0, Nat.zero_lt_of_lt ha⟩ := Fin.ext h'.symm
      rw [if_neg h, if_pos h', he, Equiv.swap_apply_left]
    · rw [if_neg h, if_neg h', Equiv.swap_apply_of_ne_of_ne (fun he => h' (by rw [he]))
        (fun he => h (by rw [he]))]
      simp

/-- C120: exchanging two particles of every walker of an array. -/
theorem take_exchanged {a : ℕ} (ha : a < N) (x : Fin W → Pos N d) :
    takeParticles (swappedList N a) (A3 x) = A3 fun t => Spec.exchange ⟨0, by omega⟩ ⟨a, ha⟩ (x t) := by
  refine eq_A3 rfl fun t e k => ?_
  unfold takeParticles
  rw [of_get (by exact .cons k.2 (.cons e.2 (.cons t.2 .nil)))]
  simp only [List.getD_cons_zero, List.getD_cons_succ, List.drop_succ_cons, List.drop_zero]
  rw [swappedList_get ha]
  exact A3_get x t.2 (Equiv.swap (⟨0, by omega⟩ : Fin N) ⟨a, ha⟩ e).2 k.2

section walkers

variable (slogPsi : Arr ℝ → Except String (Arr SL)) (f : Pos N d → SL)
  (hf : ∀ x : Fin W → Pos N d, slogPsi (A3 x) = .ok (A1 fun t => f (x t)))

include hf

/-- C120: the exchange terms of an array of walkers, for any amplitude which acts on each walker separately. -/
theorem spin_exchange_on_arrays {nUp nDown : ℕ} (hup : 0 < nUp) (hdown : 0 < nDown) (hN : nUp < N)
    (x : Fin W → Pos N d) : ∃ Y, spinExchangeA slogPsi nUp nDown (A3 x) = .ok Y ∧ Y.shape = [W] ∧
      ∀ (t : Fin W) (a b : ℝ), Represents (f (x t)) a →
        Represents (f (Spec.exchange ⟨0, by omega⟩ ⟨nUp, hN⟩ (x t))) b → a ≠ 0 →
        Y.get [t.val] = .fin (-(nUp * nDown * (b / a))) := by
  unfold spinExchangeA
  rw [if_neg (by omega), hf, ok_bind, show (A3 x).shape.getD 1 0 = N from rfl, take_exchanged hN, hf, ok_bind, map_A1,
    map_A1, zip_A1, ok_bind, map_A1, map_A1, zip_A1, ok_bind, map_A1, map_A1, zip_A1]
  refine ⟨_, rfl, rfl, fun t a b ha hb h0 => ?_⟩
  rw [A1_get _ t.2]
  have := slog_quotient ha hb h0 (-(nUp * nDown : ℝ))
  have h1 : (-XR.ofNat nUp) * XR.ofNat nDown = XR.fin (-(nUp * nDown : ℝ)) := by
    unfold XR.ofNat
    rw [XR.fin_neg, XR.fin_mul, neg_mul]
  simp only [h1]
  rw [this, neg_mul]

/-- C120: the estimate of S² from an array of walkers none of which is at a node. -/
theorem spin_square_on_arrays {nUp nDown : ℕ} (hup : 0 < nUp) (hdown : 0 < nDown) (hN : nUp < N) (hW : 0 < W)
    (x : Fin W → Pos N d) (a b : Fin W → ℝ) (ha : ∀ t, Represents (f (x t)) (a t))
    (hb : ∀ t, Represents (f (Spec.exchange ⟨0, by omega⟩ ⟨nUp, hN⟩ (x t))) (b t)) (h0 : ∀ t, a t ≠ 0)
    (nanSafe : Bool) : spinSquareA slogPsi nUp nDown nanSafe (A3 x) =
      .ok (.fin (((nUp : ℝ) - nDown) ^ 2 / 4 + ((nUp : ℝ) + nDown) / 2 - nUp * nDown * ((∑ t, b t / a t) / W))) := by
  obtain ⟨Y, h1, h2, h3⟩ := spin_exchange_on_arrays slogPsi f hf hup hdown hN x
  unfold spinSquareA
  rw [h1, ok_bind]
  refine congrArg Except.ok ?_
  rw [entries_of h2 fun t => h3 t _ _ (ha t) (hb t) (h0 t)]
  have h4 := allreduce_fin nanSafe (rows := [List.ofFn fun t => -(nUp * nDown * (b t / a t))]) hW (by simp) (by simp)
  simp only [List.map_cons, List.map_nil, List.map_ofFn] at h4
  rw [show (List.ofFn fun t : Fin W => XR.fin (-(nUp * nDown * (b t / a t)))) =
    List.ofFn (XR.fin ∘ fun t => -(nUp * nDown * (b t / a t))) from rfl, h4]
  unfold avgL
  rw [XR.fin_add, XR.fin_add]
  congr 1
  simp only [List.flatten_cons, List.flatten_nil, List.append_nil, List.sum_ofFn, List.length_ofFn,
    Finset.sum_neg_distrib, ← Finset.mul_sum]
  ring

omit hf in
/-- C120: with one species only, nothing is exchanged and S² is that of the largest spin. -/
theorem polarized_spin_square_on_arrays (hW : 0 < W) (x : Fin W → Pos N d) (nanSafe : Bool) :
    spinSquareA slogPsi N 0 nanSafe (A3 x) = .ok (.fin ((N / 2 : ℝ) * (N / 2 + 1))) := by
  unfold spinSquareA spinExchangeA
  rw [if_pos (.inr rfl), ok_bind]
  refine congrArg Except.ok ?_
  rw [entries_of (W := W) (f := fun _ => .fin 0) rfl fun t => of_get (by exact .cons t.2 .nil)]
  have h4 := allreduce_fin nanSafe (rows := [List.ofFn fun _ : Fin W => (0 : ℝ)]) hW (by simp) (by simp)
  simp only [List.map_cons, List.map_nil, List.map_ofFn] at h4
  rw [show (List.ofFn fun _ : Fin W => XR.fin 0) = List.ofFn (XR.fin ∘ fun _ => 0) from rfl, h4]
  unfold avgL
  rw [XR.fin_add, XR.fin_add]
  congr 1
  simp
  ring

end walkers

/-- Three electrons of one spin: `S² = 15/4`. -/
example (slogPsi : Arr ℝ → Except String (Arr SL)) (x : Fin 2 → Pos 3 3) :
    spinSquareA slogPsi 3 0 true (A3 x) = .ok (.fin (15 / 4)) := by
  rw [polarized_spin_square_on_arrays slogPsi (by norm_num)]
  norm_num


section configured

variable {m₀ : ℕ} {n : Fin 2 → ℕ} (c : ModelCfg) (ions : Fin (m₀ + 1) → Fin d → ℝ)
  (charges : Fin (m₀ + 1) → ℝ) (dtype : ℕ) (m : Model (m₀ + 1))
  (hm : getModelFromConfig c (counts n) ions charges dtype = .ok m) (hu : Spec.UsesNorms c)
  (hdet : c.ndeterminants ≠ 0) (hn : ∀ s, 0 < n s) (hc : Spec.Callable c 2)

include hm hu hdet hn hc

/-- A configured model, with signs, acts on each walker separately. -/
theorem configured_slog_walkers (Q : Params 2 (m₀ + 1) d) (hW : 0 < W) : ∃ f : Pos (∑ s, n s) d → SL,
    (∀ x : Fin W → Pos (∑ s, n s) d, m.onBatch n Q ions (A3 x) = .ok (A1 fun t => f (x t))) ∧
    ∀ x, m.apply Q ions (splitPositions x : Stream1 n d) = .ok (f x) := by
  have hex : ∀ x : Pos (∑ s, n s) d, ∃ v, m.apply Q ions (splitPositions x : Stream1 n d) = .ok v := fun x =>
    (configured_model_callable_iff c ions charges dtype m hm hu hn Q _).mpr hc
  choose f hf using hex
  refine ⟨f, fun x => ?_, hf⟩
  obtain ⟨Z, hZ⟩ := (configured_batch_returns_iff c ions charges dtype m hm hu hdet hn Q (B := [W]) (X := A3 x)
    rfl (by simpa using Nat.ne_of_lt hW)).mpr hc
  have h1 : ∀ w : Fin W, Z.shape = [W] ∧ Z.get [w.val] = f (x w) := by
    intro w
    have h2 := (configured_model_agrees c ions charges dtype m hm hu hdet hn Q [W] (A3 x) rfl [w.val]
      (.cons w.2 .nil)).1 Z hZ
    rw [walker_split] at h2
    have h3 : Spec.positionsOf (A3 x) [w.val] = x w := by
      funext i k
      exact A3_get x w.2 i.2 k.2
    rw [h3, hf] at h2
    exact ⟨h2.1, (Except.ok.inj h2.2).symm⟩
  rw [hZ]
  exact congrArg Except.ok (eq_A1 (h1 ⟨0, hW⟩).1 fun w => (h1 w).2)

/-- C120: the estimate of S² for a configured model of two species, from an array of walkers none of which is at a
node: `ψ` with the first electrons of the two species exchanged, divided by `ψ`, averaged over the walkers. -/
theorem configured_spin_square (Q : Params 2 (m₀ + 1) d) (nonzero : Stream1 n d → Prop)
    (ψ : Stream1 n d → ℝ) (hψ : ∀ q, Spec.ModelValue c Q ions charges q (nonzero q) (ψ q)) (hW : 0 < W)
    (h01 : n 0 < ∑ s, n s) {X : Arr ℝ} (hX : X.shape = [d, ∑ s, n s, W])
    (x x' : Fin W → Pos (∑ s, n s) d) (hx : ∀ t, x t = Spec.positionsOf X [t.val])
    (hx' : ∀ t, x' t = Spec.exchange ⟨0, by omega⟩ ⟨n 0, h01⟩ (x t))
    (h0 : ∀ t, ψ (splitPositions (x t)) ≠ 0) (h0' : ∀ t, nonzero (splitPositions (x' t))) (nanSafe : Bool) :
    spinSquareA (m.onBatch n Q ions) (n 0) (n 1) nanSafe X =
      .ok (.fin (((n 0 : ℝ) - n 1) ^ 2 / 4 + ((n 0 : ℝ) + n 1) / 2 -
        n 0 * n 1 * ((∑ t, ψ (splitPositions (x' t)) / ψ (splitPositions (x t))) / W))) := by
  obtain ⟨f, h1, h2⟩ := configured_slog_walkers c ions charges dtype m hm hu hdet hn hc Q hW
  have hXx : X = A3 x := by
    rw [funext hx]
    exact eq_A3' hX
  rw [hXx]
  refine spin_square_on_arrays _ f h1 (hn 0) (hn 1) h01 hW x _ _ (fun t => ?_) (fun t => ?_) h0 nanSafe
  · exact configured_model_computes_partial c ions charges dtype m hm Q _ _ (h2 _) _ _ (hψ _)
      (model_value_nonzero (hψ _) (h0 t))
  · rw [← hx']
    exact configured_model_computes_partial c ions charges dtype m hm Q _ _ (h2 _) _ _ (hψ _) (h0' t)

end configured

/-- Helium, `ψ = 6 exp (-|x₁| - |x₂|)`, is a singlet: from any array of walkers the estimate is 0. -/
example (P : Params 2 1 3) (hW : 0 < W) (X : Arr ℝ) (hX : X.shape = [3, 2, W]) :
    ∃ m : Model 1, getModelFromConfig {} (counts fun _ : Fin 2 => 1)
        (fun (_ : Fin 1) (_ : Fin 3) => (0 : ℝ)) (fun _ => 2) 32 = .ok m ∧
      spinSquareA (m.onBatch (fun _ : Fin 2 => 1) (scaledHelium P 2) fun _ _ => 0) 1 1 false X = .ok (.fin 0) := by
  let n : Fin 2 → ℕ := fun _ => 1
  obtain ⟨m, hm⟩ := (model_config_accepted_iff {} (counts n)
    (fun (_ : Fin 1) (_ : Fin 3) => (0 : ℝ)) (fun _ => 2) 32).mpr
    (by rw [counts_length]; exact default_acceptable "ferminet" (by simp))
  have hc : Spec.Callable ({} : ModelCfg) 2 := by
    left
    refine ⟨rfl, .inr (by simp), ?_⟩
    simp [Spec.PairsWithoutTwo]
  have hex : ∀ (q : Stream1 n 3), ∃ (nz : Prop) (r : ℝ),
      Spec.ModelValue {} (scaledHelium P 2) (fun (_ : Fin 1) _ => 0) (fun _ => 2) q nz r := by
    intro q
    obtain ⟨v, hv⟩ := (configured_model_callable_iff {} (fun (_ : Fin 1) (_ : Fin 3) => (0 : ℝ)) (fun _ => 2) 32 m hm
      ⟨rfl, fun _ => rfl⟩ (fun _ => Nat.one_pos) (scaledHelium P 2) q).mpr hc
    obtain ⟨nz, r, h, -⟩ := configured_model_value {} _ _ _ m hm (scaledHelium P 2) q v hv
    exact ⟨nz, r, h⟩
  choose nz ψ hψ using hex
  have hne : ∀ q, ψ q ≠ 0 := fun q => by
    rw [scaled_helium_value (hψ q)]
    positivity
  have h := configured_spin_square {} (fun (_ : Fin 1) (_ : Fin 3) => (0 : ℝ)) (fun _ => 2) 32 m hm
    ⟨rfl, fun _ => rfl⟩ (by simp) (fun _ => Nat.one_pos) hc (scaledHelium P 2) nz ψ hψ hW (by simp [n]) (X := X) hX
    _ _ (fun _ => rfl) (fun _ => rfl) (fun t => hne _) (fun t => model_value_nonzero (hψ _) (hne _)) false
  refine ⟨m, hm, h.trans ?_⟩
  have hsym : ∀ y : Pos (∑ s, n s) 3, ψ (splitPositions (Spec.exchange ⟨0, by simp [n]⟩ ⟨n 0, by simp [n]⟩ y)) =
      ψ (splitPositions y) := by
    intro y
    rw [scaled_helium_value (hψ _), scaled_helium_value (hψ _)]
    congr 3
    refine (Fintype.sum_equiv (finSigmaFinEquiv.trans ((Equiv.swap (⟨0, by simp [n]⟩ : Fin (∑ s, n s))
      ⟨n 0, by simp [n]⟩).trans finSigmaFinEquiv.symm)) _ _ fun e => ?_)
    unfold splitPositions Spec.exchange
    simp
  simp only [hsym]
  have : ∀ t : Fin W, ψ (splitPositions (Spec.positionsOf X [t.val])) / ψ (splitPositions (Spec.positionsOf X [t.val]))
    = 1 := fun t => div_self (hne _)
  simp only [this]
  have hW' : (W : ℝ) ≠ 0 := by positivity
  simp only [Finset.sum_const, Finset.card_univ, Fintype.card_fin, nsmul_eq_mul, mul_one, div_self hW']
  norm_num [n]

end Verif.Props
