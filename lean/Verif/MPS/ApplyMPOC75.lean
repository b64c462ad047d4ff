import Verif.MPS.ApplyMPOSweep
import Verif.MPS.TEvolC74

/-! # C75: the product of an operator and a state -/

noncomputable section

namespace Verif.ApplyMPO

open Finset Verif.Limits Verif.DmrgNum

variable {𝕜 : Type*} [RCLike 𝕜]

theorem nrm_one (dd : Int → Nat) (n : Nat) (H : (Int → Nat) → Nat → 𝕜) : nrm dd n 1 H = normSq dd n fun σ => H σ 0 := by
  simp [nrm, normSq]

theorem sumCfg_zero {dd : Int → Nat} {F : (Int → Nat) → ℝ} (hF : ∀ σ, 0 ≤ F σ) : ∀ {n : Nat} {ρ : Int → Nat}, sumCfg dd n F ρ = 0 →
    ∀ σ : Int → Nat, (∀ i : Int, 1 ≤ i → i ≤ n → σ i < dd i) → (∀ i : Int, ¬ (1 ≤ i ∧ i ≤ n) → σ i = ρ i) → F σ = 0 := by
  intro n
  induction n with
  | zero =>
    intro ρ h σ _ h2
    rw [show σ = ρ from funext fun i => h2 i (by push_cast; omega)]
    exact h
  | succ n ih =>
    intro ρ h σ h1 h2
    rw [sumCfg, sum_eq_zero_iff_of_nonneg fun s _ => TEvol.sumCfg_nonneg hF _ _] at h
    refine ih (h (σ ((n : Int) + 1)) (by simpa using h1 ((n : Int) + 1) (by omega) (by push_cast; omega))) σ (fun i i1 i2 => h1 i i1 (by push_cast; omega)) fun i hi => ?_
    by_cases e : i = (n : Int) + 1
    · subst e
      rw [Function.update_self]
    · rw [Function.update_of_ne e]
      exact h2 i (by push_cast; omega)

/-- What is said about the result `psi'` of applying `M` to the state `t`, with the number of states limited by `o`. -/
structure Applied (o : Opts) (M : Mpo 𝕜) (N : Nat) (di dd : Int → Nat) (t : Int → Site 𝕜) (psi' : MPS (Site 𝕜)) : Prop where
  len : psi'.N = N
  left : psi'.l = 0
  right : psi'.r = 2
  chain : Chain N dd psi'.t
  ro : ∀ i : Int, 2 ≤ i → i ≤ N → RO (psi'.t i)
  max : ∀ m, o.maxdim = some m → ∀ i : Int, 2 ≤ i → i ≤ N → ((psi'.t i).l : Int) ≤ m

theorem sweep_all {T : Tools 𝕜} (hT : EigOK T) {o : Opts} (hc : 0 ≤ o.cutoff) {M : Mpo 𝕜} {di dd : Int → Nat} {psi : MPS (Site 𝕜)} (hN : 2 ≤ psi.N)
    (g : Given M psi.N di dd psi.t) {χ : Int → Site 𝕜} (hχ : Bounds o psi.N χ) (hχl : ∀ i : Int, 1 ≤ i → i < psi.N → (χ i).r = (χ (i + 1)).l) {B : ℝ}
    (hB : o.cutoff * normSq dd psi.N (opWave M psi.N di (wave psi.t psi.N)) ≤ B)
    (hZ : ∀ m, o.maxdim = some m → normSq dd psi.N (fun σ => opWave M psi.N di (wave psi.t psi.N) σ - wave χ psi.N σ) ≤ B) :
    ∃ out, sweep T o M dd psi.t psi.N (psi.N - 1) (firstO (M.W psi.N) (psi.t psi.N)) (psi.t psi.N).r psi.t = .ok out ∧
      Applied o M psi.N di dd psi.t ⟨psi.N, out, 0, 2⟩ ∧
      normSq dd psi.N (fun σ => opWave M psi.N di (wave psi.t psi.N) σ - wave out psi.N σ) =
        normSq dd psi.N (opWave M psi.N di (wave psi.t psi.N)) - normSq dd psi.N (wave out psi.N) ∧
      normSq dd psi.N (fun σ => opWave M psi.N di (wave psi.t psi.N) σ - wave out psi.N σ) ≤ (psi.N - 1 : Nat) * B := by
  obtain ⟨N, t, l, r⟩ := psi
  dsimp only at *
  obtain ⟨n, rfl⟩ : ∃ n, N = n + 1 := ⟨N - 1, by omega⟩
  have hr : (t ((n + 1 : Nat) : Int)).r = 1 := g.chain.last
  have hw : ∀ σ, st M t n (firstO (M.W ((n + 1 : Nat) : Int)) (t ((n + 1 : Nat) : Int))) σ 0 = opWave M (n + 1) di (wave t (n + 1)) σ := fun σ =>
    (st_first M t n σ 0 rfl).trans (part_opWave M g.chain σ)
  have hw' : (fun σ => st M t n (firstO (M.W ((n + 1 : Nat) : Int)) (t ((n + 1 : Nat) : Int))) σ 0) = opWave M (n + 1) di (wave t (n + 1)) := funext hw
  obtain ⟨out, ho, hs, he⟩ := sweep_spec hT hc g hχ hχl (B := B) n le_rfl (firstO (M.W ((n + 1 : Nat) : Int)) (t ((n + 1 : Nat) : Int))) 1 t le_rfl
    (by rw [nrm_one, hw']; exact hB)
    (by
      intro m hm
      refine ⟨fun k s b => (χ ((n : Int) + 1)).A k s b, ?_⟩
      rw [nrm_one]
      simp only [hw]
      exact hZ m hm)
  refine ⟨out, ?_, ⟨rfl, rfl, rfl, ⟨hs.first, hs.last, fun i h1 h2 => hs.site i h1 (by push_cast at h2; exact h2), fun i h1 h2 => hs.link i h1 (by push_cast at h2; omega)⟩,
    fun i h1 h2 => hs.ro i h1 (by push_cast at h2; exact h2), fun m hm i h1 h2 => hs.max m hm i h1 (by push_cast at h2; exact h2)⟩, ?_, ?_⟩
  · rw [hr]
    exact ho
  · have := hs.pyth
    rw [nrm_one, nrm_one, nrm_one, hw'] at this
    simp only [hw] at this
    exact this
  · rw [nrm_one] at he
    simp only [hw] at he
    exact he

/-- `applyMPO` with a `Cutoff` and no `MaxDim`, for two or more sites: the result is close to the product of the operator and the state, and the
best one in its gauge. Missing: one site, which ends with an error, and rounding. mpoalgs.cc:186-303 -/
theorem C75_cutoff_partial {T : Tools 𝕜} (hT : EigOK T) {o : Opts} (hc : 0 ≤ o.cutoff) (hm : o.maxdim = none) (hn : o.norml = false) {M : Mpo 𝕜} {di dd : Int → Nat}
    {psi : MPS (Site 𝕜)} (hN : 2 ≤ psi.N) (g : Given M psi.N di dd psi.t) :
    ∃ psi', applyMPO T o M dd psi = .ok psi' ∧ Applied o M psi.N di dd psi.t psi' ∧
      normSq dd psi.N (fun σ => opWave M psi.N di (wave psi.t psi.N) σ - wave psi'.t psi.N σ) =
        normSq dd psi.N (opWave M psi.N di (wave psi.t psi.N)) - normSq dd psi.N (wave psi'.t psi.N) ∧
      normSq dd psi.N (fun σ => opWave M psi.N di (wave psi.t psi.N) σ - wave psi'.t psi.N σ) ≤
        (psi.N - 1 : Nat) * (o.cutoff * normSq dd psi.N (opWave M psi.N di (wave psi.t psi.N))) := by
  obtain ⟨out, ho, ha, hp, he⟩ := sweep_all hT hc hN g (χ := fun _ => ⟨1, 1, 1, fun _ _ _ => 0⟩) (fun m h => by rw [hm] at h; cases h) (fun _ _ _ => rfl) le_rfl
    (fun m h => by rw [hm] at h; cases h)
  refine ⟨⟨psi.N, out, 0, 2⟩, ?_, ha, hp, he⟩
  rw [applyMPO, if_neg (by omega), ho, Res.bind_ok, finish, if_neg (by rw [hn]; simp)]

/-- Without a `Cutoff` the result is exactly the product. -/
theorem C75_exact_partial {T : Tools 𝕜} (hT : EigOK T) {o : Opts} (hc : o.cutoff = 0) (hm : o.maxdim = none) (hn : o.norml = false) {M : Mpo 𝕜} {di dd : Int → Nat}
    {psi : MPS (Site 𝕜)} (hN : 2 ≤ psi.N) (g : Given M psi.N di dd psi.t) :
    ∃ psi', applyMPO T o M dd psi = .ok psi' ∧ Applied o M psi.N di dd psi.t psi' ∧
      ∀ σ, TEvol.Cfg dd psi.N σ → wave psi'.t psi.N σ = opWave M psi.N di (wave psi.t psi.N) σ := by
  obtain ⟨psi', h1, h2, _, h4⟩ := C75_cutoff_partial hT hc.ge hm hn hN g
  refine ⟨psi', h1, h2, fun σ hσ => ?_⟩
  rw [hc, zero_mul, mul_zero] at h4
  have h5 := le_antisymm h4 (TEvol.normSq_nonneg _ _ _)
  let σ' : Int → Nat := fun i => if 1 ≤ i ∧ i ≤ psi.N then σ i else 0
  have hs : ∀ i : Int, 1 ≤ i → i ≤ psi.N → σ i = σ' i := fun i i1 i2 => (if_pos ⟨i1, i2⟩).symm
  have := sumCfg_zero (fun σ => by positivity) h5 σ' (fun i i1 i2 => by rw [← hs i i1 i2]; exact hσ i i1 i2) fun i hi => if_neg hi
  rw [sq_eq_zero_iff, norm_eq_zero, sub_eq_zero] at this
  rw [wave, loc_amp psi'.t psi.N σ σ' hs, ← part_opWave M g.chain, part_congr M psi.t hs, part_opWave M g.chain]
  exact this.symm

/-- `applyMPO` with a `MaxDim` and `RespectDegenerate=false`, for two or more sites: up to the factor `N-1` no state whose links are within
`MaxDim` is closer to the product. -/
theorem C75_best_partial {T : Tools 𝕜} (hT : EigOK T) {o : Opts} (hc : 0 ≤ o.cutoff) {m : Int} (hm : o.maxdim = some m) (hm1 : 1 ≤ m) (hr : o.respect = false)
    (hn : o.norml = false) {M : Mpo 𝕜} {di dd : Int → Nat} {psi : MPS (Site 𝕜)} (hN : 2 ≤ psi.N) (g : Given M psi.N di dd psi.t) :
    ∃ psi', applyMPO T o M dd psi = .ok psi' ∧ Applied o M psi.N di dd psi.t psi' ∧
      normSq dd psi.N (fun σ => opWave M psi.N di (wave psi.t psi.N) σ - wave psi'.t psi.N σ) =
        normSq dd psi.N (opWave M psi.N di (wave psi.t psi.N)) - normSq dd psi.N (wave psi'.t psi.N) ∧
      ∀ χ : Int → Site 𝕜, Chain psi.N dd χ → (∀ i : Int, 2 ≤ i → i ≤ psi.N → ((χ i).l : Int) ≤ m) →
        normSq dd psi.N (fun σ => opWave M psi.N di (wave psi.t psi.N) σ - wave psi'.t psi.N σ) ≤
          (psi.N - 1 : Nat) * max (normSq dd psi.N fun σ => opWave M psi.N di (wave psi.t psi.N) σ - wave χ psi.N σ)
            (o.cutoff * normSq dd psi.N (opWave M psi.N di (wave psi.t psi.N))) := by
  have hap : ∀ out, sweep T o M dd psi.t psi.N (psi.N - 1) (firstO (M.W psi.N) (psi.t psi.N)) (psi.t psi.N).r psi.t = .ok out →
      applyMPO T o M dd psi = .ok ⟨psi.N, out, 0, 2⟩ := by
    intro out ho
    rw [applyMPO, if_neg (by omega), ho, Res.bind_ok, finish, if_neg (by rw [hn]; simp)]
  have main : ∀ χ : Int → Site 𝕜, (∀ i : Int, 1 ≤ i → i < psi.N → (χ i).r = (χ (i + 1)).l) → (∀ i : Int, 2 ≤ i → i ≤ psi.N → ((χ i).l : Int) ≤ m) → _ := fun χ h1 h2 =>
    sweep_all hT hc hN g (χ := χ) (fun m' h => by
      obtain rfl : m = m' := by rw [hm] at h; simpa using h
      exact ⟨hr, hm1, h2⟩) h1 (le_max_right (normSq dd psi.N fun σ => opWave M psi.N di (wave psi.t psi.N) σ - wave χ psi.N σ) _) fun m' _ => le_max_left _ _
  obtain ⟨out, ho, ha, hp, -⟩ := main (fun _ => ⟨1, 1, 1, fun _ _ _ => 0⟩) (fun _ _ _ => rfl) (fun _ _ _ => by simpa using hm1)
  refine ⟨_, hap out ho, ha, hp, fun χ c h => ?_⟩
  obtain ⟨out', ho', -, -, he'⟩ := main χ c.link h
  obtain rfl : out = out' := by
    rw [ho] at ho'
    simpa using ho'
  exact he'

theorem sweep_norml (T : Tools 𝕜) (o : Opts) (b : Bool) (M : Mpo 𝕜) (dd : Int → Nat) (t : Int → Site 𝕜) (N : Nat) : ∀ n O r res,
    sweep T { o with norml := b } M dd t N n O r res = sweep T o M dd t N n O r res := by
  intro n
  induction n with
  | zero => intro O r res; rfl
  | succ n ih =>
    intro O r res
    rw [sweep, sweep]
    refine congrArg (Res.bind _) ?_
    funext q
    exact ih _ _ _

/-- With `Normalize` the result is what it is without, divided by its norm. -/
theorem C75_normalize_partial {T : Tools 𝕜} {o : Opts} (hn : o.norml = false) {M : Mpo 𝕜} {di dd : Int → Nat} {psi psi' : MPS (Site 𝕜)} (hN : 2 ≤ psi.N)
    (h : applyMPO T o M dd psi = .ok psi') (ha : Applied o M psi.N di dd psi.t psi') :
    if normSq dd psi.N (wave psi'.t psi.N) = 0 then applyMPO T { o with norml := true } M dd psi = .ub
    else ∃ psi'', applyMPO T { o with norml := true } M dd psi = .ok psi'' ∧ Applied o M psi.N di dd psi.t psi'' ∧
      (∀ σ, wave psi''.t psi.N σ = ((1 / Real.sqrt (normSq dd psi.N (wave psi'.t psi.N)) : ℝ) : 𝕜) * wave psi'.t psi.N σ) ∧
      normSq dd psi.N (wave psi''.t psi.N) = 1 := by
  rw [applyMPO, if_neg (by omega), Res.bind_eq_ok] at h
  obtain ⟨out, ho, hf⟩ := h
  rw [finish, if_neg (by rw [hn]; simp)] at hf
  obtain rfl : (⟨psi.N, out, 0, 2⟩ : MPS (Site 𝕜)) = psi' := by simpa using hf
  dsimp only at *
  have hfr := TEvol.frob_center ha.chain (b := 1) le_rfl (by omega) (fun i h1 h2 => by omega) fun i h1 h2 => ha.ro i (by omega) h2
  dsimp only at hfr
  have hrun : applyMPO T { o with norml := true } M dd psi = finish { o with norml := true } psi.N out := by
    rw [applyMPO, if_neg (by omega), sweep_norml, ho, Res.bind_ok]
  rw [hrun, finish, if_pos rfl, hfr]
  split_ifs with h0
  · rfl
  · have hw : ∀ σ, wave (Function.update out 1 (normalizeSite (out 1))) psi.N σ = ((1 / Real.sqrt (normSq dd psi.N (wave out psi.N)) : ℝ) : 𝕜) * wave out psi.N σ := by
      intro σ
      rw [← hfr]
      exact TEvol.wave_scale ha.chain (b := 1) le_rfl (by omega) _ σ
    have hm : ∀ i, (Function.update out 1 (normalizeSite (out 1)) i).l = (out i).l ∧
        (Function.update out 1 (normalizeSite (out 1)) i).d = (out i).d ∧ (Function.update out 1 (normalizeSite (out 1)) i).r = (out i).r := by
      intro i
      by_cases h : i = 1
      · subst h; rw [Function.update_self]; exact ⟨rfl, rfl, rfl⟩
      · rw [Function.update_of_ne h]; exact ⟨rfl, rfl, rfl⟩
    refine ⟨_, rfl, ⟨rfl, rfl, rfl, ⟨?_, ?_, ?_, ?_⟩, ?_, ?_⟩, hw, ?_⟩
    · rw [(hm _).1]; exact ha.chain.first
    · rw [(hm _).2.2]; exact ha.chain.last
    · intro i i1 i2; rw [(hm _).2.1]; exact ha.chain.site i i1 i2
    · intro i i1 i2; rw [(hm _).2.2, (hm _).1]; exact ha.chain.link i i1 i2
    · intro i i1 i2
      dsimp only
      rw [Function.update_of_ne (by omega)]
      exact ha.ro i i1 i2
    · intro m hm' i i1 i2
      rw [(hm _).1]
      exact ha.max m hm' i i1 i2
    · dsimp only
      rw [show wave (Function.update out 1 (normalizeSite (out 1))) psi.N = _ from funext hw, TEvol.normSq_mul, RCLike.norm_ofReal, sq_abs, div_pow, Real.sq_sqrt (TEvol.normSq_nonneg _ _ _)]
      field_simp

/-! ## The assumptions can be met -/

theorem exists_tools : ∃ T : Tools 𝕜, EigOK T := by
  classical
  let mat : Nat → (Nat → Nat → Nat → Nat → 𝕜) → Nat → Nat → 𝕜 := fun r H i j =>
    (H (i / r) (i % r) (j / r) (j % r) + (starRingEnd 𝕜) (H (j / r) (j % r) (i / r) (i % r))) / 2
  have hmat : ∀ d r H, ∀ i < d * r, ∀ j < d * r, mat r H j i = (starRingEnd 𝕜) (mat r H i j) := by
    intro d r H i _ j _
    simp only [mat, map_div₀, map_add, RCLike.conj_conj, map_ofNat]
    ring
  choose e he using fun d r H => Solvers.exists_isEig (d * r) (mat r H) (hmat d r H)
  have idx : ∀ d r s b : Nat, s < d → b < r → s * r + b < d * r ∧ (s * r + b) / r = s ∧ (s * r + b) % r = b := by
    intro d r s b hs hb
    refine ⟨?_, ?_, ?_⟩
    · calc s * r + b < s * r + r := by omega
        _ = (s + 1) * r := by ring
        _ ≤ d * r := Nat.mul_le_mul_right _ hs
    · rw [mul_comm, Nat.mul_add_div (by omega), Nat.div_eq_of_lt hb, add_zero]
    · rw [mul_comm, Nat.mul_add_mod, Nat.mod_eq_of_lt hb]
  refine ⟨⟨fun d r H => ((List.range (d * r)).map (e d r H).d, fun s b m => (starRingEnd 𝕜) ((e d r H).U (s * r + b) m)), 1⟩, ⟨by norm_num, ?_, ?_, ?_, ?_⟩⟩
  · intro d r H
    simp
  · intro d r H
    simp only [Decomp.Desc, List.pairwise_map]
    refine List.Pairwise.imp_of_mem (fun {a b} ha hb hab => ?_) List.pairwise_lt_range
    exact (he d r H).desc a b hab.le (by simpa using hb)
  · intro d r H m hm m' hm'
    dsimp only
    rw [sum_divmod d r fun s b => (starRingEnd 𝕜) ((starRingEnd 𝕜) ((e d r H).U (s * r + b) m)) * (starRingEnd 𝕜) ((e d r H).U (s * r + b) m')]
    have := congrArg (starRingEnd 𝕜) ((he d r H).uu m hm m' hm')
    rw [map_sum] at this
    refine Eq.trans (sum_congr rfl fun i _ => ?_) (this.trans (by split_ifs <;> simp))
    rw [Nat.div_add_mod', map_mul]
  · intro d r H hH s hs b hb s' hs' b' hb'
    obtain ⟨i1, i2, i3⟩ := idx d r s b hs hb
    obtain ⟨j1, j2, j3⟩ := idx d r s' b' hs' hb'
    generalize hi : s * r + b = i at *
    generalize hj : s' * r + b' = j at *
    have hM : H s b s' b' = mat r H i j := by
      simp only [mat, i2, i3, j2, j3]
      rw [← hH s hs b hb s' hs' b' hb']
      ring
    rw [hM]
    dsimp only
    have h1 : mat r H i j = ∑ k ∈ range (d * r), mat r H i k * ∑ m ∈ range (d * r), (e d r H).U k m * (starRingEnd 𝕜) ((e d r H).U j m) := by
      rw [sum_eq_single j]
      · rw [(he d r H).uu' j j1 j j1, if_pos rfl, mul_one]
      · intro k hk hne
        rw [(he d r H).uu' k (by simpa using hk) j j1, if_neg hne, mul_zero]
      · intro h; exact absurd (by simpa using j1) h
    rw [h1]
    simp only [mul_sum]
    rw [sum_comm]
    refine sum_congr rfl fun m hm => ?_
    have hm : m < d * r := by simpa using hm
    rw [RCLike.conj_conj, hi, hj]
    rw [List.getD_eq_getElem?_getD, List.getElem?_map, List.getElem?_range hm]
    simp only [Option.map_some, Option.getD_some]
    rw [mul_comm ((e d r H).U i m), ← (he d r H).vec i i1 m hm, sum_mul]
    exact sum_congr rfl fun k _ => by rw [mul_assoc]

/-! ## Where it fails -/

/-- Two equal values, of which one can be kept: `RespectDegenerate`, which is on by default here, removes both. -/
theorem truncate_pair (eps c x : ℝ) (hx : x ≠ 0) : ∃ out, Decomp.truncate eps ⟨1, 1, c, false, true, true⟩ [x, x] = .ok out ∧ out.P = [] := by
  have h1 : Decomp.zeroNeg (([x, x] : List ℝ).map (· / x)) = [1, 1] := by
    simp [Decomp.zeroNeg, Decomp.zeroFront, div_self hx]
  simp only [Decomp.truncate, if_neg hx, h1]
  simp [Decomp.cut, Decomp.maxLoop, Decomp.cutLoop, Decomp.rd, Decomp.degenBelow, Decomp.degenAbove, Res.bind]

theorem eig_one {T : Tools 𝕜} (hT : EigOK T) {d r : Nat} {H : Nat → Nat → Nat → Nat → 𝕜}
    (h : ∀ s < d, ∀ b < r, ∀ s' < d, ∀ b' < r, H s b s' b' = if s = s' ∧ b = b' then 1 else 0) {m : Nat} (hm : m < d * r) : (T.eig d r H).1.getD m 0 = 1 := by
  have hh : ∀ s < d, ∀ b < r, ∀ s' < d, ∀ b' < r, H s b s' b' = (starRingEnd 𝕜) (H s' b' s b) := by
    intro s hs b hb s' hs' b' hb'
    rw [h s hs b hb s' hs' b' hb', h s' hs' b' hb' s hs b hb]
    simp only [eq_comm (a := s), eq_comm (a := b)]
    split_ifs <;> simp
  have he := hT.eig d r H hh
  have ho := hT.ortho d r H
  generalize T.eig d r H = q at *
  obtain ⟨D, U⟩ := q
  dsimp only at *
  have key : ∀ s' < d, ∀ b' < r, U s' b' m = ((D.getD m 0 : ℝ) : 𝕜) * U s' b' m := by
    intro s' hs' b' hb'
    have e1 : ∑ s ∈ range d, ∑ b ∈ range r, U s b m * H s b s' b' = U s' b' m := by
      rw [sum_eq_single s']
      · rw [sum_eq_single b']
        · rw [h s' hs' b' hb' s' hs' b' hb', if_pos ⟨rfl, rfl⟩, mul_one]
        · intro b hb hne
          rw [h s' hs' b (by simpa using hb) s' hs' b' hb', if_neg (fun h => hne h.2), mul_zero]
        · intro h; exact absurd (by simpa using hb') h
      · intro s hs hne
        refine sum_eq_zero fun b hb => ?_
        rw [h s (by simpa using hs) b (by simpa using hb) s' hs' b' hb', if_neg (fun h => hne h.1), mul_zero]
      · intro h; exact absurd (by simpa using hs') h
    have e2 : ∑ s ∈ range d, ∑ b ∈ range r, U s b m * H s b s' b' =
        ∑ k ∈ range (d * r), (∑ s ∈ range d, ∑ b ∈ range r, (starRingEnd 𝕜) (U s b k) * U s b m) * (((D.getD k 0 : ℝ) : 𝕜) * U s' b' k) := by
      refine Eq.trans (sum_congr rfl fun s hs => sum_congr rfl fun b hb => by
        rw [he s (by simpa using hs) b (by simpa using hb) s' hs' b' hb', mul_sum]) ?_
      refine Eq.trans (sum_congr rfl fun s _ => sum_comm) ?_
      rw [sum_comm]
      refine sum_congr rfl fun k _ => ?_
      rw [sum_mul]
      refine sum_congr rfl fun s _ => ?_
      rw [sum_mul]
      refine sum_congr rfl fun b _ => ?_
      ring
    refine e1.symm.trans (e2.trans ?_)
    rw [sum_eq_single m]
    · rw [ho m hm m hm, if_pos rfl, one_mul]
    · intro k hk hne
      rw [ho k (by simpa using hk) m hm, if_neg hne, zero_mul]
    · intro h; exact absurd (by simpa using hm) h
  have e3 := ho m hm m hm
  rw [if_pos rfl] at e3
  have e4 : ((D.getD m 0 : ℝ) : 𝕜) = 1 := by
    refine Eq.trans (Eq.trans (mul_one _).symm (congrArg _ e3.symm)) (Eq.trans ?_ e3)
    rw [mul_sum]
    refine sum_congr rfl fun s hs => ?_
    rw [mul_sum]
    refine sum_congr rfl fun b hb => ?_
    rw [mul_left_comm, ← key s (by simpa using hs) b (by simpa using hb)]
  exact_mod_cast e4

/-- A density matrix which is the identity of two states. -/
theorem diag_pair {T : Tools 𝕜} (hT : EigOK T) (c : ℝ) {H : Nat → Nat → Nat → Nat → 𝕜} (h : ∀ s < 2, ∀ s' < 2, H s 0 s' 0 = if s = s' then 1 else 0) :
    ∃ U, diagPosSemiDef T c (some 1) true 2 1 H = .ok (0, U) := by
  have h' : ∀ s < 2, ∀ b < 1, ∀ s' < 2, ∀ b' < 1, H s b s' b' = if s = s' ∧ b = b' then 1 else 0 := by
    intro s hs b hb s' hs' b' hb'
    obtain rfl : b = 0 := by omega
    obtain rfl : b' = 0 := by omega
    simpa using h s hs s' hs'
  have h0 := eig_one hT h' (m := 0) (by decide)
  have h1 := eig_one hT h' (m := 1) (by decide)
  have hl := hT.len 2 1 H
  have hD : (T.eig 2 1 H).1 = [1, 1] := by
    generalize (T.eig 2 1 H).1 = D at *
    match D, hl with
    | [a, b], _ =>
      simp at h0 h1
      rw [h0, h1]
  obtain ⟨out, ho, hP⟩ := truncate_pair T.eps c 1 one_ne_zero
  refine ⟨(T.eig 2 1 H).2, ?_⟩
  rw [diagPosSemiDef, if_neg (by decide)]
  simp only [hD, Option.getD_some, ho, Res.bind_ok, hP]
  rfl

/-- The identity operator. -/
def idM : Mpo 𝕜 := ⟨fun _ => 1, fun _ _ s' s _ => if s' = s then 1 else 0⟩

/-- The state `|00…0⟩ + |11…1⟩`. -/
def ghz (N : Nat) (i : Int) : Site 𝕜 :=
  if i = 1 then ⟨1, 2, 2, fun _ s c => if s = c then 1 else 0⟩ else if i = N then ⟨2, 2, 1, fun a s _ => if a = s then 1 else 0⟩
  else ⟨2, 2, 2, fun a s c => if a = s ∧ s = c then 1 else 0⟩

theorem ghz_chain {N : Nat} (hN : 2 ≤ N) : Chain N (fun _ => 2) (ghz (𝕜 := 𝕜) N) := by
  refine ⟨by simp [ghz], ?_, ?_, ?_⟩
  · rw [ghz, if_neg (by omega), if_pos rfl]
  · intro i _ _
    simp only [ghz]
    split_ifs <;> rfl
  · intro i h1 h2
    simp only [ghz]
    split_ifs <;> first | rfl | omega

/-- With `RespectDegenerate`, the default, and a `MaxDim` which divides states of equal weight the result for two sites is zero, though there are states
within `MaxDim` which are closer, and for three sites there is an error. -/
theorem C75_degenerate_counterexample {T : Tools 𝕜} (hT : EigOK T) (c : ℝ) :
    (∃ psi', applyMPO T ⟨c, some 1, true, false⟩ idM (fun _ => 2) ⟨2, ghz 2, 0, 3⟩ = .ok psi' ∧ (psi'.t 2).l = 0 ∧ ∀ σ, wave psi'.t 2 σ = 0) ∧
    normSq (fun _ => 2) 2 (opWave idM 2 (fun _ => 2) (wave (ghz (𝕜 := 𝕜) 2) 2)) = 2 ∧
    (∃ χ : Int → Site 𝕜, Chain 2 (fun _ => 2) χ ∧ (∀ i, (χ i).l = 1) ∧
      normSq (fun _ => 2) 2 (fun σ => opWave idM 2 (fun _ => 2) (wave (ghz 2) 2) σ - wave χ 2 σ) = 1) ∧
    applyMPO T ⟨c, some 1, true, false⟩ idM (fun _ => 2) ⟨3, ghz 3, 0, 4⟩ = .throw := by
  refine ⟨?_, ?_, ?_, ?_⟩
  · obtain ⟨U, hU⟩ := diag_pair hT c (H := rho (ghz (𝕜 := 𝕜) 2 2).l 1 (envs idM (fun _ => 2) (ghz 2) 1) (firstO (idM.W 2) (ghz 2 2))) (by
      intro s hs s' hs'
      interval_cases s <;> interval_cases s' <;> simp [rho, envs, envStep, firstO, ghz, idM, sum_range_succ])
    refine ⟨⟨2, Function.update (Function.update (ghz 2) 2 ⟨0, 2, 1, fun m s b => (starRingEnd 𝕜) (U s b m)⟩) 1
      ⟨1, 2, 0, fun a s b => nextO 2 1 (ghz (𝕜 := 𝕜) 2 2).l 1 (firstO (idM.W 2) (ghz 2 2)) U (ghz 2 1) (idM.W 1) a 0 s b⟩, 0, 2⟩, ?_, ?_, ?_⟩
    · have e : sweep T ⟨c, some 1, true, false⟩ idM (fun _ => 2) (ghz 2) 2 1 (firstO (idM.W 2) (ghz 2 2)) 1 (ghz 2) =
          (diagPosSemiDef T c (some 1) true 2 1 (rho (ghz (𝕜 := 𝕜) 2 2).l 1 (envs idM (fun _ => 2) (ghz 2) 1) (firstO (idM.W 2) (ghz 2 2)))).bind fun q =>
            .ok (Function.update (Function.update (ghz 2) 2 ⟨q.1, 2, 1, fun m s b => (starRingEnd 𝕜) (q.2 s b m)⟩) 1
              ⟨1, 2, q.1, fun a s b => nextO 2 1 (ghz (𝕜 := 𝕜) 2 2).l 1 (firstO (idM.W 2) (ghz 2 2)) q.2 (ghz 2 1) (idM.W 1) a 0 s b⟩) := rfl
      rw [hU, Res.bind_ok] at e
      rw [applyMPO, if_neg (by simp)]
      have hr : (ghz (𝕜 := 𝕜) 2 ((2 : Nat) : Int)).r = 1 := by simp [ghz]
      dsimp only
      rw [hr]
      refine Eq.trans (congrArg (fun x => Res.bind x _) e) ?_
      rw [Res.bind_ok, finish, if_neg (by simp)]
    · dsimp only
      rw [Function.update_of_ne (by decide), Function.update_self]
    · intro σ
      simp [wave, amp]
  · simp [normSq, sumCfg, opWave, wave, amp, elem, hop, idM, ghz, sum_range_succ, Function.update]
    norm_num
  · refine ⟨fun _ => ⟨1, 2, 1, fun _ s _ => if s = 0 then 1 else 0⟩, ⟨rfl, rfl, fun _ _ _ => rfl, fun _ _ _ => rfl⟩, fun _ => rfl, ?_⟩
    simp [normSq, sumCfg, opWave, wave, amp, elem, hop, idM, ghz, sum_range_succ, Function.update]
  · obtain ⟨U, hU⟩ := diag_pair hT c (H := rho (ghz (𝕜 := 𝕜) 3 3).l 1 (envs idM (fun _ => 2) (ghz 3) 2) (firstO (idM.W 3) (ghz 3 3))) (by
      intro s hs s' hs'
      interval_cases s <;> interval_cases s' <;> simp [rho, envs, envStep, firstO, ghz, idM, sum_range_succ])
    have e : sweep T ⟨c, some 1, true, false⟩ idM (fun _ => 2) (ghz 3) 3 2 (firstO (idM.W 3) (ghz 3 3)) 1 (ghz 3) =
        (diagPosSemiDef T c (some 1) true 2 1 (rho (ghz (𝕜 := 𝕜) 3 3).l 1 (envs idM (fun _ => 2) (ghz 3) 2) (firstO (idM.W 3) (ghz 3 3)))).bind fun q =>
          sweep T ⟨c, some 1, true, false⟩ idM (fun _ => 2) (ghz 3) 3 1 (nextO 2 1 (ghz (𝕜 := 𝕜) 3 3).l 1 (firstO (idM.W 3) (ghz 3 3)) q.2 (ghz 3 2) (idM.W 2)) q.1
            (Function.update (ghz 3) 3 ⟨q.1, 2, 1, fun m s b => (starRingEnd 𝕜) (q.2 s b m)⟩) := rfl
    rw [hU, Res.bind_ok] at e
    rw [applyMPO, if_neg (by simp)]
    have hr : (ghz (𝕜 := 𝕜) 3 ((3 : Nat) : Int)).r = 1 := by simp [ghz]
    dsimp only
    rw [hr]
    refine Eq.trans (congrArg (fun x => Res.bind x _) e) ?_
    rw [sweep, diagPosSemiDef, if_pos (by simp)]
    rfl

/-- With one site there is always an error. -/
theorem C75_one_site_counterexample (T : Tools 𝕜) (o : Opts) (M : Mpo 𝕜) (dd : Int → Nat) {psi : MPS (Site 𝕜)} (h : psi.N = 1) : applyMPO T o M dd psi = .throw := by
  rw [applyMPO, if_pos (by omega)]

/-! ## Examples -/

/-- An operator from sites of dimension 2 to sites of dimension 3, with links of dimension 2. -/
def exK : Mpo 𝕜 := ⟨fun i => if i = 0 then 1 else 2, fun i w s' s v => ((w + 2 * s' + 3 * s * v + i.toNat : Nat) : 𝕜)⟩

theorem ex_given (N : Nat) (hN : 2 ≤ N) : Given (exK (𝕜 := 𝕜)) N (fun _ => 2) (fun _ => 3) (ghz N) := by
  refine ⟨ghz_chain hN, rfl, ?_, fun _ _ _ => by decide⟩
  intro i h1 h2
  simp only [ghz, exK]
  split_ifs <;> first | omega | simp

example : ∃ (T : Tools ℂ) (psi' : MPS (Site ℂ)), applyMPO T ⟨0, none, true, false⟩ exK (fun _ => 3) ⟨4, ghz 4, 0, 5⟩ = .ok psi' ∧
    ∀ σ, TEvol.Cfg (fun _ => 3) 4 σ → wave psi'.t 4 σ = opWave exK 4 (fun _ => 2) (wave (ghz 4) 4) σ := by
  obtain ⟨T, hT⟩ := exists_tools (𝕜 := ℂ)
  obtain ⟨psi', h1, _, h2⟩ := C75_exact_partial hT (o := ⟨0, none, true, false⟩) rfl rfl rfl (psi := ⟨4, ghz 4, 0, 5⟩) (by decide) (ex_given 4 (by decide))
  exact ⟨T, psi', h1, h2⟩

example : ∃ (T : Tools ℂ) (psi' : MPS (Site ℂ)), applyMPO T ⟨1 / 10 ^ 13, some 2, false, false⟩ exK (fun _ => 3) ⟨4, ghz 4, 0, 5⟩ = .ok psi' := by
  obtain ⟨T, hT⟩ := exists_tools (𝕜 := ℂ)
  obtain ⟨psi', h1, _⟩ := C75_best_partial hT (o := ⟨1 / 10 ^ 13, some 2, false, false⟩) (by positivity) rfl (by decide) rfl rfl (psi := ⟨4, ghz 4, 0, 5⟩) (by decide) (ex_given 4 (by decide))
  exact ⟨T, psi', h1⟩

/-- And a normalized result. -/
example : ∃ (T : Tools ℂ) (psi' : MPS (Site ℂ)), applyMPO T ⟨0, none, true, true⟩ idM (fun _ => 2) ⟨2, ghz 2, 0, 3⟩ = .ok psi' ∧ normSq (fun _ => 2) 2 (wave psi'.t 2) = 1 := by
  obtain ⟨T, hT⟩ := exists_tools (𝕜 := ℂ)
  have g : Given (idM (𝕜 := ℂ)) 2 (fun _ => 2) (fun _ => 2) (ghz 2) := by
    refine ⟨ghz_chain le_rfl, rfl, ?_, fun _ _ _ => by decide⟩
    intro i h1 h2
    simp only [ghz, idM]
    split_ifs <;> first | omega | simp
  obtain ⟨psi', h1, h2, h3, h4⟩ := C75_cutoff_partial hT (o := ⟨0, none, true, false⟩) le_rfl rfl rfl (psi := ⟨2, ghz 2, 0, 3⟩) (by decide) g
  dsimp only at h3 h4
  have h5 := (C75_degenerate_counterexample hT 0).2.1
  rw [h5] at h3 h4
  have h6 := C75_normalize_partial rfl (psi := ⟨2, ghz 2, 0, 3⟩) (by decide) h1 h2
  dsimp only at h6
  have h0 := TEvol.normSq_nonneg (fun _ => 2) 2 (fun σ => opWave idM 2 (fun _ => 2) (wave (ghz (𝕜 := ℂ) 2) 2) σ - wave psi'.t 2 σ)
  rw [if_neg (by intro h; rw [h] at h3; rw [h3] at h4; norm_num at h4)] at h6
  obtain ⟨psi'', h7, _, _, h8⟩ := h6
  exact ⟨T, psi'', h7, h8⟩

end Verif.ApplyMPO
