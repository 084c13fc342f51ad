import Verif.Lemmas.ArrayViewsExtended
import Verif.Props.BatchedRefines

/-!
What the array code of the FermiNets with hidden fermions returns for a batch of walkers.
-/

namespace Verif.Props
open Verif.Arrays Verif.Slog Verif.Construct Verif.Net Equiv

variable {K M d : ℕ} {n : Fin (K + 1) → ℕ}

/-- Array code which acts on parts of a batch as on the whole, and computes `g` for one walker, computes `g`
for every walker of a batch. -/
theorem computes_of_on {F : Arr ℝ → Except String (Arr SL)} {g : Stream1 n d → Except String SL}
    (h : ∀ B b X x, On B b 2 X x → ERel (On B b 0) (F X) (F x))
    (h1 : ∀ pos, F (S1 pos) = A0 <$> g pos) : Spec.ComputesPerWalker F g := by
  intro B X hX b hb
  have ho : On B b 2 X (X.part b) := on_part (s := [d, ∑ s, n s]) hb hX
  have h2 := h _ _ _ _ ho
  rw [part_walker (n := n) hX hb, h1] at h2
  cases hv : g (Spec.walkerOf X b) with
  | error e =>
    rw [hv] at h2
    cases hF : F X with
    | error e' => rw [hF] at h2; cases h2; exact .inl ⟨e, rfl, rfl⟩
    | ok Y => rw [hF] at h2; cases h2
  | ok v =>
    rw [hv] at h2
    cases hF : F X with
    | error e' => rw [hF] at h2; cases h2
    | ok Y =>
      rw [hF] at h2
      cases h2 with
      | ok h3 =>
        refine .inr ⟨Y, rfl, h3.shape.trans (List.nil_append _), ?_⟩
        rw [show Y.get b = (A0 v).get [] from h3.get [] rfl]
        rfl

/-- Array code which computes an antisymmetric function for every walker: permuting the electrons of each
walker within the species, each walker in its own way, multiplies the entry of each walker by the sign of its
permutation. -/
theorem batches_antisymmetric {F : Arr ℝ → Except String (Arr SL)} {g : Stream1 n d → Except String SL}
    (h : Spec.ComputesPerWalker F g)
    (ha : ∀ π pos, g (permute1 π pos) = (g pos).map (signTimes (totalParity π)))
    {B : List ℕ} {X X' : Arr ℝ} (hX : X.shape = d :: (∑ s, n s) :: B)
    (hX' : X'.shape = d :: (∑ s, n s) :: B) (π : List ℕ → ∀ s, Perm (Fin (n s)))
    (hp : ∀ b, Ix b B → (Spec.walkerOf X' b : Stream1 n d) = permute1 (π b) (Spec.walkerOf X b))
    {Y : Arr SL} (hY : F X = .ok Y) (hB : 0 ∉ B) :
    ∃ Y', F X' = .ok Y' ∧ Y'.shape = B ∧
      ∀ b, Ix b B → Y'.get b = signTimes (totalParity (π b)) (Y.get b) := by
  have key : ∀ b, Ix b B → ∃ Y', F X' = .ok Y' ∧ Y'.shape = B ∧
      Y'.get b = signTimes (totalParity (π b)) (Y.get b) := by
    intro b hb
    have h1 := h B X hX b hb
    have h2 := h B X' hX' b hb
    rw [hp b hb, ha] at h2
    obtain ⟨e, h3, _⟩ | ⟨Z, h3, _, h4⟩ := h1
    · rw [hY] at h3; cases h3
    · rw [hY] at h3
      cases h3
      rw [h4] at h2
      obtain ⟨e, _, h5⟩ | ⟨Z', h5, h6, h7⟩ := h2
      · cases h5
      · exact ⟨Z', h5, h6, (Except.ok.inj h7).symm⟩
  have hz : Ix (B.map fun _ => 0) B := by
    clear key hY hp hX hX'
    induction B with
    | nil => exact .nil
    | cons a l ih =>
      simp only [List.mem_cons, not_or] at hB
      exact .cons (Nat.pos_of_ne_zero (Ne.symm hB.1)) (ih hB.2)
  obtain ⟨Y', h1, h2, _⟩ := key _ hz
  refine ⟨Y', h1, h2, fun b hb => ?_⟩
  obtain ⟨Z, h3, _, h4⟩ := key b hb
  rw [h1] at h3
  cases h3
  exact h4

/-! ### Hidden particles -/

/-- C109: the array code of the embedded-particle FermiNet computes the function of the per-walker model for
every walker of every batch. -/
theorem embedded_computes_per_walker (f : FermiDesc) (nh : List ℕ) (s : StreamsDesc) (bs : List BlockDesc)
    (inv : InvarianceDesc) (P : Params (K + 1) (M + 1) d)
    (hs : f.spinSplit = Split.getSpinSplit (counts n)) (hb : BlocksMatch (counts n) bs)
    (hb' : nh.length = K + 1 → BlocksMatch (counts fun s => n s + hiddenOf K nh s) f.backflow)
    (hei : s.includeEiNorm = true) (hei' : f.streams.includeEiNorm = true) (hdet : f.ndeterminants ≠ 0)
    (hN : ∑ s, n s ≠ 0) (ions : Fin (M + 1) → Fin d → ℝ) :
    Spec.ComputesPerWalker (n := n)
      (embeddedA f nh s bs inv (fermiA f P fun s => n s + hiddenOf K nh s)
        (embeddedInvarianceA (hiddenOf K nh) s bs P) (A2 ions))
      (applyEmbedded f nh s bs inv P ions) :=
  computes_of_on (fun _ _ _ _ h => on_embedded (ions := A2 ions) rfl f hei' nh s hei bs inv _ _ h)
    (embedded_one f nh s bs inv P hs hb hb' hei hei' hdet hN ions)

/-- C109: the array code of the extended-orbital-matrix FermiNet computes the function of the per-walker
model for every walker of every batch. -/
theorem extended_computes_per_walker (f : FermiDesc) (nh : List ℕ) (invBackflow : Option (List BlockDesc))
    (inv : InvarianceDesc) (P : Params (K + 1) (M + 1) d) (hl : nh.length = K + 1)
    (hs : f.spinSplit = Split.getSpinSplit (counts n)) (hb : BlocksMatch (counts n) f.backflow)
    (hb' : ∀ bs, invBackflow = some bs → BlocksMatch (counts n) bs)
    (hei : f.streams.includeEiNorm = true) (hdet : f.ndeterminants ≠ 0)
    (hN : ∑ s, n s ≠ 0) (ions : Fin (M + 1) → Fin d → ℝ) :
    Spec.ComputesPerWalker (n := n)
      (extendedA f nh invBackflow inv (fermiA f P fun s => n s + hiddenOf K nh s)
        (extendedInvarianceA f (hiddenOf K nh) (extendedCols f n (hiddenOf K nh)) invBackflow P) (A2 ions))
      (applyExtended f nh invBackflow inv P ions) :=
  computes_of_on (fun _ _ _ _ h => on_extended (ions := A2 ions) rfl f hei hdet nh invBackflow inv _ _ h)
    (extended_one f nh invBackflow inv P hl hs hb hb' hei hdet hN ions)

/-- The extended code returns only if there is one hidden count for each split. -/
theorem extended_returns_length {f : FermiDesc} {nh : List ℕ} {ds : Option (List BlockDesc)}
    {inv : InvarianceDesc} {P : FermiA} {I : InvarianceA} {ions X : Arr ℝ} {Y : Arr SL}
    (h : extendedA f nh ds inv P I ions X = .ok Y) : nh.length = f.spinSplit.length + 1 := by
  unfold extendedA at h
  rw [bind_eq_ok] at h
  obtain ⟨⟨a, b, c, _⟩, _, h⟩ := h
  simp only [bind_eq_ok] at h
  obtain ⟨st, _, norb, hn, raw, _, eq, _, rows, hr, _⟩ := h
  unfold invarianceRows at hr
  by_cases hlt : norb.length < nh.length
  · rw [if_pos hlt] at hr; cases hr
  rw [if_neg hlt, bind_eq_ok] at hr
  obtain ⟨st', _, hr⟩ := hr
  rw [bind_eq_ok] at hr
  obtain ⟨raw', hr, _⟩ := hr
  unfold invariantTensorA at hr
  by_cases hz : (List.zipWith (fun h m => (h, m * f.ndeterminants)) nh norb).length ≠ f.spinSplit.length + 1
  · rw [if_pos hz] at hr; cases hr
  · rw [List.length_zipWith] at hz
    omega

/-! ### Configured models -/

/-- An embedded-particle FermiNet built from a configuration returns, for every walker of a batch, a
representation of the value which the configuration stands for (unless all terms of the sum of determinants
vanish). -/
theorem configured_embedded_on_batches (c : ModelCfg) (ions : Fin (M + 1) → Fin d → ℝ)
    (charges : Fin (M + 1) → ℝ) (dtype : ℕ) (f : FermiDesc) (nh : List ℕ) (s : StreamsDesc)
    (bs : List BlockDesc) (inv : InvarianceDesc)
    (hm : getModelFromConfig c (counts n) ions charges dtype = .ok (.embedded f nh s bs inv))
    (hei : Spec.UsesNorms c) (hdet : c.ndeterminants ≠ 0) (hN : ∑ s, n s ≠ 0)
    (P : Params (K + 1) (M + 1) d) {B : List ℕ} {X : Arr ℝ} (hX : X.shape = d :: (∑ s, n s) :: B)
    {Y : Arr SL} (hY : embeddedA f nh s bs inv (fermiA f P fun s => n s + hiddenOf K nh s)
        (embeddedInvarianceA (hiddenOf K nh) s bs P) (A2 ions) X = .ok Y) {b : List ℕ} (hb : Ix b B) :
    Y.shape = B ∧ ∃ (nonzero : Prop) (r : ℝ),
      Spec.ModelValue c P ions charges (Spec.walkerOf X b : Stream1 n d) nonzero r ∧
        (nonzero → Spec.Represents (Y.get b) r) := by
  have hmatch := configured_model_splits_match c _ ions charges dtype _ hm
  have hnorm := configured_model_norms c _ ions charges dtype _ hm hei
  have hmeans := configured_model_means_partial c _ ions charges dtype _ hm
  cases hmeans with
  | embedded _ _ seen _ _ _ ht _ _ h _ _ _ =>
    have hd : f.ndeterminants ≠ 0 := by rw [h.determinants]; exact hdet
    have hb' : nh.length = K + 1 → BlocksMatch (counts fun s => n s + hiddenOf K nh s) f.backflow := by
      intro hl
      have h1 := hmatch.2.1 (by rw [counts_length, hl])
      rwa [show List.zipWith (· + ·) (nh.map Int.ofNat) (counts n) =
        counts fun s => n s + hiddenOf K nh s from ?_] at h1
      conv_lhs => rw [hidden_ofFn nh hl]
      unfold counts
      refine List.ext_getElem (by simp) fun i h1 h2 => ?_
      simp only [List.getElem_zipWith, List.getElem_map, List.getElem_ofFn, Int.ofNat_eq_natCast]
      push_cast
      exact add_comm _ _
    obtain ⟨e, h3, _⟩ | ⟨Z, h3, h4, h5⟩ :=
      embedded_computes_per_walker f nh s bs inv P hmatch.1 hmatch.2.2 hb' hnorm.2 hnorm.1 hd hN ions B X hX
        b hb
    · rw [hY] at h3; cases h3
    · rw [hY] at h3
      cases h3
      refine ⟨h4, configured_model_value c ions charges dtype _ hm P _ _ ?_⟩
      unfold Model.apply
      rw [if_neg (by simpa using hmatch), if_neg (by simpa using hnorm)]
      exact h5

/-- An extended-orbital-matrix FermiNet built from a configuration returns, for every walker of a batch, a
representation of the value which the configuration stands for (unless all terms of the sum of determinants
vanish). -/
theorem configured_extended_on_batches (c : ModelCfg) (ions : Fin (M + 1) → Fin d → ℝ)
    (charges : Fin (M + 1) → ℝ) (dtype : ℕ) (f : FermiDesc) (nh : List ℕ)
    (ib : Option (List BlockDesc)) (inv : InvarianceDesc)
    (hm : getModelFromConfig c (counts n) ions charges dtype = .ok (.extended f nh ib inv))
    (hei : c.inputStreams.includeEiNorm = true) (hdet : c.ndeterminants ≠ 0) (hN : ∑ s, n s ≠ 0)
    (P : Params (K + 1) (M + 1) d) {B : List ℕ} {X : Arr ℝ} (hX : X.shape = d :: (∑ s, n s) :: B)
    {Y : Arr SL} (hY : extendedA f nh ib inv (fermiA f P fun s => n s + hiddenOf K nh s)
        (extendedInvarianceA f (hiddenOf K nh) (extendedCols f n (hiddenOf K nh)) ib P) (A2 ions) X = .ok Y)
    {b : List ℕ} (hb : Ix b B) :
    Y.shape = B ∧ ∃ (nonzero : Prop) (r : ℝ),
      Spec.ModelValue c P ions charges (Spec.walkerOf X b : Stream1 n d) nonzero r ∧
        (nonzero → Spec.Represents (Y.get b) r) := by
  have hmatch := configured_model_splits_match c _ ions charges dtype _ hm
  have hmeans := configured_model_means_partial c _ ions charges dtype _ hm
  cases hmeans with
  | extended _ _ _ _ ht _ h _ _ =>
    have he : f.streams.includeEiNorm = true := by rw [h.streams.ei, hei]
    have hd : f.ndeterminants ≠ 0 := by rw [h.determinants]; exact hdet
    have hl : nh.length = K + 1 := by
      rw [extended_returns_length hY]
      have := congrArg List.length (places_counts (n := n))
      rw [← hmatch.1] at this
      simpa [places, ends] using this
    obtain ⟨e, h3, _⟩ | ⟨Z, h3, h4, h5⟩ :=
      extended_computes_per_walker f nh ib inv P hl hmatch.1 hmatch.2.1 hmatch.2.2 he hd hN ions B X hX b hb
    · rw [hY] at h3; cases h3
    · rw [hY] at h3
      cases h3
      refine ⟨h4, configured_model_value c ions charges dtype _ hm P _ _ ?_⟩
      unfold Model.apply
      rw [if_neg (by simpa using hmatch), if_neg (by simpa [Model.EiNorms] using he)]
      exact h5

/-! ### Antisymmetry -/

/-- Permuting the electrons of each walker in its own way, for the embedded-particle FermiNet. -/
theorem embedded_batches_antisymmetric (f : FermiDesc) (nh : List ℕ) (s : StreamsDesc) (bs : List BlockDesc)
    (inv : InvarianceDesc) (P : Params (K + 1) (M + 1) d)
    (hs : f.spinSplit = Split.getSpinSplit (counts n)) (hb : BlocksMatch (counts n) bs)
    (hb' : nh.length = K + 1 → BlocksMatch (counts fun s => n s + hiddenOf K nh s) f.backflow)
    (hei : s.includeEiNorm = true) (hei' : f.streams.includeEiNorm = true) (hdet : f.ndeterminants ≠ 0)
    (hN : ∑ s, n s ≠ 0) (ions : Fin (M + 1) → Fin d → ℝ)
    {B : List ℕ} {X X' : Arr ℝ} (hX : X.shape = d :: (∑ s, n s) :: B)
    (hX' : X'.shape = d :: (∑ s, n s) :: B) (π : List ℕ → ∀ s, Perm (Fin (n s)))
    (hp : ∀ b, Ix b B → (Spec.walkerOf X' b : Stream1 n d) = permute1 (π b) (Spec.walkerOf X b))
    {Y : Arr SL} (hY : embeddedA f nh s bs inv (fermiA f P fun s => n s + hiddenOf K nh s)
        (embeddedInvarianceA (hiddenOf K nh) s bs P) (A2 ions) X = .ok Y) (hB : 0 ∉ B) :
    ∃ Y', embeddedA f nh s bs inv (fermiA f P fun s => n s + hiddenOf K nh s)
        (embeddedInvarianceA (hiddenOf K nh) s bs P) (A2 ions) X' = .ok Y' ∧ Y'.shape = B ∧
      ∀ b, Ix b B → Y'.get b = signTimes (totalParity (π b)) (Y.get b) :=
  batches_antisymmetric (embedded_computes_per_walker f nh s bs inv P hs hb hb' hei hei' hdet hN ions)
    (embedded_desc_antisymmetric f nh s bs inv P ions) hX hX' π hp hY hB

/-- Permuting the electrons of each walker in its own way, for the extended-orbital-matrix FermiNet. -/
theorem extended_batches_antisymmetric (f : FermiDesc) (nh : List ℕ) (invBackflow : Option (List BlockDesc))
    (inv : InvarianceDesc) (P : Params (K + 1) (M + 1) d) (hl : nh.length = K + 1)
    (hs : f.spinSplit = Split.getSpinSplit (counts n)) (hb : BlocksMatch (counts n) f.backflow)
    (hb' : ∀ bs, invBackflow = some bs → BlocksMatch (counts n) bs)
    (hei : f.streams.includeEiNorm = true) (hdet : f.ndeterminants ≠ 0)
    (hN : ∑ s, n s ≠ 0) (ions : Fin (M + 1) → Fin d → ℝ)
    {B : List ℕ} {X X' : Arr ℝ} (hX : X.shape = d :: (∑ s, n s) :: B)
    (hX' : X'.shape = d :: (∑ s, n s) :: B) (π : List ℕ → ∀ s, Perm (Fin (n s)))
    (hp : ∀ b, Ix b B → (Spec.walkerOf X' b : Stream1 n d) = permute1 (π b) (Spec.walkerOf X b))
    {Y : Arr SL} (hY : extendedA f nh invBackflow inv (fermiA f P fun s => n s + hiddenOf K nh s)
        (extendedInvarianceA f (hiddenOf K nh) (extendedCols f n (hiddenOf K nh)) invBackflow P) (A2 ions) X =
          .ok Y) (hB : 0 ∉ B) :
    ∃ Y', extendedA f nh invBackflow inv (fermiA f P fun s => n s + hiddenOf K nh s)
        (extendedInvarianceA f (hiddenOf K nh) (extendedCols f n (hiddenOf K nh)) invBackflow P) (A2 ions) X' =
          .ok Y' ∧ Y'.shape = B ∧
      ∀ b, Ix b B → Y'.get b = signTimes (totalParity (π b)) (Y.get b) :=
  batches_antisymmetric (extended_computes_per_walker f nh invBackflow inv P hl hs hb hb' hei hdet hN ions)
    (extended_desc_antisymmetric f nh invBackflow inv P ions) hX hX' π hp hY hB

/-! ### Examples -/

/-- The default embedded-particle FermiNet for three electrons around one nucleus, called on four times five
walkers: it returns twenty numbers, each of which is the value of the configuration for its walker. -/
example (P : Params 2 1 3) (X : Arr ℝ) (hX : X.shape = [3, 3, 5, 4]) :
    ∃ f nh s bs inv, getModelFromConfig { type := "embedded_particle_ferminet" } (counts (![2, 1] : Fin 2 → ℕ))
        (fun (_ : Fin 1) (_ : Fin 3) => (0 : ℝ)) (fun _ => 3) 32 = .ok (.embedded f nh s bs inv) ∧
      ∃ Y, embeddedA f nh s bs inv (fermiA f P fun s => ![2, 1] s + hiddenOf 1 nh s)
        (embeddedInvarianceA (hiddenOf 1 nh) s bs P) (A2 fun (_ : Fin 1) (_ : Fin 3) => 0) X = .ok Y ∧
          Y.shape = [5, 4] ∧
        ∀ b, Ix b [5, 4] → ∃ (nonzero : Prop) (r : ℝ), Spec.ModelValue { type := "embedded_particle_ferminet" } P
          (fun _ _ => 0) (fun _ => 3) (Spec.walkerOf X b : Stream1 (![2, 1] : Fin 2 → ℕ) 3) nonzero r ∧
            (nonzero → Spec.Represents (Y.get b) r) := by
  obtain ⟨m, hm⟩ := (model_config_accepted_iff { type := "embedded_particle_ferminet" }
    (counts (![2, 1] : Fin 2 → ℕ)) (fun (_ : Fin 1) (_ : Fin 3) => (0 : ℝ)) (fun _ => 3) 32).mpr
    (by rw [counts_length]; exact default_acceptable "embedded_particle_ferminet" (by simp))
  have hX' : X.shape = 3 :: (∑ s, (![2, 1] : Fin 2 → ℕ) s) :: [5, 4] := hX
  obtain ⟨p, hp⟩ := (configured_model_callable_iff _ _ _ _ m hm ⟨rfl, fun _ => rfl⟩
    (by intro s; fin_cases s <;> simp) P (Spec.walkerOf X [0, 0])).mpr (by
      right; left
      refine ⟨rfl, rfl, by simp, ?_⟩
      simp [Spec.PairsWithoutTwo])
  have hmatch := configured_model_splits_match _ _ _ _ _ _ hm
  have hnorm := configured_model_norms _ _ _ _ _ _ hm ⟨rfl, fun _ => rfl⟩
  cases configured_model_means_partial _ _ _ _ _ _ hm with
  | fermiNet _ ht => exact absurd ht (by decide)
  | extended _ _ _ _ ht => exact absurd ht (by decide)
  | antiequivariance _ _ _ _ _ _ ht => simp at ht
  | explicit _ _ _ _ _ ht => exact absurd ht (by decide)
  | embedded f nh seen s bs inv _ hnh _ h =>
    have hd : f.ndeterminants ≠ 0 := by rw [h.determinants]; simp
    have h0 : Ix [0, 0] [5, 4] := .cons (by decide) (.cons (by decide) .nil)
    unfold Model.apply at hp
    rw [if_neg (by simpa using hmatch), if_neg (by simpa using hnorm)] at hp
    have hb' : nh.length = 1 + 1 →
        BlocksMatch (counts fun s => (![2, 1] : Fin 2 → ℕ) s + hiddenOf 1 nh s) f.backflow := by
      intro hl
      have h1 := hmatch.2.1 (by rw [counts_length, hl])
      subst hnh
      exact h1
    obtain ⟨e, _, h2⟩ | ⟨Y, h1, h2, _⟩ := embedded_computes_per_walker f nh s bs inv P hmatch.1 hmatch.2.2 hb'
      hnorm.2 hnorm.1 hd (by decide) (fun _ _ => 0) [5, 4] X hX' [0, 0] h0
    · rw [show applyEmbedded f nh s bs inv P (fun _ _ => 0) (Spec.walkerOf X [0, 0]) = .ok p from hp] at h2
      cases h2
    · exact ⟨f, nh, s, bs, inv, hm, Y, h1, h2, fun b hb =>
        (configured_embedded_on_batches _ _ _ 32 f nh s bs inv hm ⟨rfl, fun _ => rfl⟩ (by simp) (by decide) P hX'
          h1 hb).2⟩

/-- The default extended-orbital-matrix FermiNet for three electrons around one nucleus, called on four times
five walkers. -/
example (P : Params 2 1 3) (X : Arr ℝ) (hX : X.shape = [3, 3, 5, 4]) :
    ∃ f nh ib inv, getModelFromConfig { type := "extended_orbital_matrix_ferminet" }
        (counts (![2, 1] : Fin 2 → ℕ)) (fun (_ : Fin 1) (_ : Fin 3) => (0 : ℝ)) (fun _ => 3) 32 =
          .ok (.extended f nh ib inv) ∧
      ∃ Y, extendedA f nh ib inv (fermiA f P fun s => ![2, 1] s + hiddenOf 1 nh s)
        (extendedInvarianceA f (hiddenOf 1 nh) (extendedCols f ![2, 1] (hiddenOf 1 nh)) ib P)
          (A2 fun (_ : Fin 1) (_ : Fin 3) => 0) X = .ok Y ∧ Y.shape = [5, 4] ∧
        ∀ b, Ix b [5, 4] → ∃ (nonzero : Prop) (r : ℝ),
          Spec.ModelValue { type := "extended_orbital_matrix_ferminet" } P (fun _ _ => 0) (fun _ => 3)
            (Spec.walkerOf X b : Stream1 (![2, 1] : Fin 2 → ℕ) 3) nonzero r ∧
            (nonzero → Spec.Represents (Y.get b) r) := by
  obtain ⟨m, hm⟩ := (model_config_accepted_iff { type := "extended_orbital_matrix_ferminet" }
    (counts (![2, 1] : Fin 2 → ℕ)) (fun (_ : Fin 1) (_ : Fin 3) => (0 : ℝ)) (fun _ => 3) 32).mpr
    (by rw [counts_length]; exact default_acceptable "extended_orbital_matrix_ferminet" (by simp))
  have hX' : X.shape = 3 :: (∑ s, (![2, 1] : Fin 2 → ℕ) s) :: [5, 4] := hX
  obtain ⟨p, hp⟩ := (configured_model_callable_iff _ _ _ _ m hm ⟨rfl, fun _ => rfl⟩
    (by intro s; fin_cases s <;> simp) P (Spec.walkerOf X [0, 0])).mpr (by
      right; right; left
      refine ⟨rfl, rfl, .inr (by simp), ?_⟩
      simp [Spec.PairsWithoutTwo])
  have hmatch := configured_model_splits_match _ _ _ _ _ _ hm
  cases configured_model_means_partial _ _ _ _ _ _ hm with
  | fermiNet _ ht => exact absurd ht (by decide)
  | embedded _ _ _ _ _ _ ht => exact absurd ht (by decide)
  | antiequivariance _ _ _ _ _ _ ht => simp at ht
  | explicit _ _ _ _ _ ht => exact absurd ht (by decide)
  | extended f nh ib inv _ hnh h =>
    have he : f.streams.includeEiNorm = true := by rw [h.streams.ei]
    have hd : f.ndeterminants ≠ 0 := by rw [h.determinants]; simp
    have hl : nh.length = 1 + 1 := by rw [hnh]; rfl
    have h0 : Ix [0, 0] [5, 4] := .cons (by decide) (.cons (by decide) .nil)
    unfold Model.apply at hp
    rw [if_neg (by simpa using hmatch), if_neg (by simpa [Model.EiNorms] using he)] at hp
    obtain ⟨e, _, h2⟩ | ⟨Y, h1, h2, _⟩ := extended_computes_per_walker f nh ib inv P hl hmatch.1 hmatch.2.1
      hmatch.2.2 he hd (by decide) (fun _ _ => 0) [5, 4] X hX' [0, 0] h0
    · rw [show applyExtended f nh ib inv P (fun _ _ => 0) (Spec.walkerOf X [0, 0]) = .ok p from hp] at h2
      cases h2
    · exact ⟨f, nh, ib, inv, hm, Y, h1, h2, fun b hb =>
        (configured_extended_on_batches _ _ _ 32 f nh ib inv hm rfl (by simp) (by decide) P hX' h1 hb).2⟩

end Verif.Props
