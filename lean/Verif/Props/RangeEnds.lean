import Verif.Props.Range
import Mathlib.Analysis.SpecialFunctions.Log.Deriv

/-! Property C131: fitting the classifier ends, and when it goes wrong. -/
namespace Verif.Optim

open MathUtils EStep Finset Filter Topology

variable {r c K C : ℕ} {R : ExpRange} {Cy : List (Option ℝ)} {w : Fin C → ℝ} {data : List (Vec K ℝ × Fin C)} {L : ℝ}

theorem scores_move (eta g : Mat K C ℝ) (a : ℝ) (x : Vec K ℝ) (c : Fin C) :
    scores (move eta a g) x c = scores eta x c - a * scores g x c := by
  unfold scores move
  rw [Finset.mul_sum, ← Finset.sum_sub_distrib]
  exact Finset.sum_congr rfl fun k _ => by ring

theorem scores_tendsto (eta g : Mat K C ℝ) (x : Vec K ℝ) (c : Fin C) :
    Tendsto (fun a : ℝ => scores (move eta a g) x c) (𝓝[>] 0) (𝓝 (scores eta x c)) := by
  have h : Continuous fun a : ℝ => scores eta x c - a * scores g x c := by fun_prop
  have := (h.tendsto 0).mono_left (nhdsWithin_le_nhds (s := Set.Ioi 0))
  simp only [zero_mul, sub_zero] at this
  simpa only [scores_move] using this

/-- Near a position the exponentials that do not count still do not. -/
theorem near_kept (eta g : Mat K C ℝ) (x : Vec K ℝ) : ∀ᶠ a : ℝ in 𝓝[>] 0, ∀ c, scores eta x c < R.lo →
    scores (move eta a g) x c < R.lo := by
  refine eventually_all.2 fun c => ?_
  by_cases hc : scores eta x c < R.lo
  · filter_upwards [(scores_tendsto eta g x c).eventually (gt_mem_nhds hc)] with a ha _ using ha
  · exact Eventually.of_forall fun a h => absurd h hc

theorem kept_le (eta z : Mat K C ℝ) (x : Vec K ℝ) (h : ∀ c, scores eta x c < R.lo → scores z x c < R.lo) :
    ∑ c, expSmall R (scores z x c) ≤ ∑ c ∈ univ.filter fun c => ¬ scores eta x c < R.lo, Real.exp (∑ k, z k c * x k) := by
  rw [Finset.sum_filter]
  refine Finset.sum_le_sum fun c _ => ?_
  by_cases hc : scores eta x c < R.lo
  · rw [if_neg (not_not.2 hc)]
    unfold expSmall
    rw [if_pos (h c hc)]
  · rw [if_pos hc]
    exact expSmall_le R _

theorem near_fits {eta : Mat K C ℝ} (g : Mat K C ℝ) {x : Vec K ℝ} (hf : Fits R (scores eta x))
    (hp : ∀ᶠ a : ℝ in 𝓝[>] 0, 0 < ∑ c, expSmall R (scores (move eta a g) x c)) :
    ∀ᶠ a : ℝ in 𝓝[>] 0, Fits R (scores (move eta a g) x) := by
  have h1 : ∀ᶠ a : ℝ in 𝓝[>] 0, ∀ c, scores (move eta a g) x c < R.hi :=
    eventually_all.2 fun c => (scores_tendsto eta g x c).eventually (gt_mem_nhds (hf.1 c))
  have ht : Tendsto (fun a : ℝ => ∑ c ∈ univ.filter fun c => ¬ scores eta x c < R.lo, Real.exp (scores (move eta a g) x c)) (𝓝[>] 0)
      (𝓝 (∑ c ∈ univ.filter fun c => ¬ scores eta x c < R.lo, Real.exp (scores eta x c))) :=
    tendsto_finsetSum _ fun c _ => (Real.continuous_exp.tendsto _).comp (scores_tendsto eta g x c)
  have h2 := ht.eventually (gt_mem_nhds (show _ < Real.exp R.hi by
    have := hf.2.1
    rw [← kept_sum (R := R) eta x] at this
    exact this))
  filter_upwards [h1, h2, hp, near_kept (R := R) eta g x] with a a1 a2 a3 a4
  exact ⟨a1, lt_of_le_of_lt (kept_le eta _ x a4) a2, a3⟩

theorem kept_le_frozen (hpos : ∀ d ∈ data, 0 < w d.2) {eta z : Mat K C ℝ} (hz : ∀ d ∈ data, Fits R (scores z d.1))
    (h : ∀ d ∈ data, ∀ c, scores eta d.1 c < R.lo → scores z d.1 c < R.lo) :
    keptObjective R data w L z ≤ frozen R data w L eta z := by
  unfold keptObjective frozen
  have e : L * squaredNorm z / 2 = L / 2 * ∑ k, ∑ c, z k c ^ 2 := by unfold squaredNorm; ring
  rw [e]
  refine add_le_add_left (neg_le_neg ?_) _
  refine List.sum_le_sum fun d hd => ?_
  refine mul_le_mul_of_nonneg_left (sub_le_sub_left ?_ _) (hpos d hd).le
  exact Real.log_le_log (hz d hd).2.2 (kept_le eta z d.1 (h d hd))

/-- A search from a balanced position with a finite value ends. -/
theorem search_ends (hw : Weighs Cy w (data.map Prod.snd)) (hpos : ∀ d ∈ data, 0 < w d.2) (hx : ∀ d ∈ data, ∀ k, 0 ≤ d.1 k)
    (hL0 : 0 ≤ L) (hL : L ≤ 1) {eta : Mat K C ℝ} {b : ℝ} (hb1 : b < 1) (he : Balanced eta)
    (hf : ∀ d ∈ data, Fits R (scores eta d.1)) :
    ∃ eta' v, ExtArmijo b (1 / 2) (problem R data Cy L).value eta (keptGradient R data w L eta) eta' v := by
  set g := keptGradient R data w L eta with hg
  have hv0 : (problem R data Cy L).value eta = some (.fin (keptObjective R data w L eta)) := value_fits hw hf
  suffices h : ∃ a v, ExtArmijoLoop (problem R data Cy L).value eta g (.fin (keptObjective R data w L eta)) (b * dot g g) (1 / 2)
      (1 / (1 / 2)) (.fin (keptObjective R data w L eta)) a v by
    obtain ⟨a, v, h⟩ := h
    exact ⟨_, v, _, a, hv0, by norm_num, h, rfl⟩
  rcases (dot_self_nonneg g).eq_or_lt with h0 | hD
  · refine ⟨_, _, .exit ?_⟩
    rw [← h0]
    show ¬ _ > _ + -(_ * (b * 0))
    simp
  -- near 0 the function is below the line
  have hd := hasDerivAt_line (p := g) (frozen_gradient (w := w) (L := L) hf)
  rw [← hg] at hd
  have hlt : - dot g g < - b * dot g g := by nlinarith
  have hev : ∀ᶠ a in 𝓝[>] (0 : ℝ), frozen R data w L eta (move eta a g) ≤ frozen R data w L eta eta - a * (b * dot g g) := by
    have h1 : ∀ᶠ a in nhdsWithin (0 : ℝ) {0}ᶜ,
        a⁻¹ • (frozen R data w L eta (move eta (0 + a) g) - frozen R data w L eta (move eta 0 g)) < - b * dot g g :=
      hd.tendsto_slope_zero.eventually (gt_mem_nhds hlt)
    have h2 : 𝓝[>] (0 : ℝ) ≤ nhdsWithin (0 : ℝ) {0}ᶜ := nhdsWithin_mono _ fun a ha => (ne_of_gt ha : a ≠ 0)
    filter_upwards [h2 h1, self_mem_nhdsWithin] with a ha ha0
    have ha0 : (0 : ℝ) < a := ha0
    have hx : move eta 0 g = eta := by funext i j; simp [move]
    rw [zero_add, hx, smul_eq_mul, inv_mul_lt_iff₀ ha0] at ha
    nlinarith
  have h1 : ∀ᶠ a in 𝓝[>] (0 : ℝ), a ≤ 1 :=
    (eventually_le_nhds (show (0 : ℝ) < 1 by norm_num)).filter_mono nhdsWithin_le_nhds
  have hbal : ∀ᶠ a in 𝓝[>] (0 : ℝ), Balanced (move eta a g) := by
    filter_upwards [h1, self_mem_nhdsWithin] with a ha ha0
    exact balanced_move he hf hL hL0 (le_of_lt ha0) ha
  have hfits : ∀ᶠ a in 𝓝[>] (0 : ℝ), ∀ d ∈ data, Fits R (scores (move eta a g) d.1) := by
    refine (eventually_all_finite (List.finite_toSet data)).2 fun d hd => near_fits g (hf d hd) ?_
    filter_upwards [hbal] with a ha
    exact lt_of_lt_of_le one_pos (one_le_sum ha (hx d hd) d.2)
  have hkept : ∀ᶠ a in 𝓝[>] (0 : ℝ), ∀ d ∈ data, ∀ c, scores eta d.1 c < R.lo → scores (move eta a g) d.1 c < R.lo :=
    (eventually_all_finite (List.finite_toSet data)).2 fun d _ => near_kept eta g d.1
  have htend : Tendsto (fun n : ℕ => (1 / 2 : ℝ) ^ n) atTop (𝓝[>] 0) := by
    rw [tendsto_nhdsWithin_iff]
    exact ⟨tendsto_pow_atTop_nhds_zero_of_lt_one (by norm_num) (by norm_num), Eventually.of_forall fun n => by
      show (0 : ℝ) < _
      positivity⟩
  obtain ⟨n, n1, n2, n3⟩ := (htend.eventually (hev.and (hfits.and hkept))).exists
  have e : ∀ m : ℕ, (1 / (1 / 2) : ℝ) * (1 / 2) ^ (m + 1) = (1 / 2) ^ m := fun m => by rw [pow_succ]; ring
  refine extArmijoLoop_reaches n (fun m _ => ?_) fun u hu => ?_
  · rw [e]
    have hb : Balanced (move eta ((1 / 2) ^ m) g) :=
      balanced_move he hf hL hL0 (by positivity) (pow_le_one₀ (by norm_num) (by norm_num))
    rcases value_balanced (R := R) (L := L) hw hpos hx hb with ⟨_, h⟩ | h
    · exact ⟨_, h⟩
    · exact ⟨_, h⟩
  · rw [e] at hu ⊢
    have : u = .fin (keptObjective R data w L (move eta ((1 / 2) ^ n) g)) :=
      Option.some.inj (hu.symm.trans (value_fits hw n2))
    subst this
    have h3 := kept_le_frozen (L := L) hpos n2 n3
    rw [frozen_self] at n1
    show ¬ _ > _ + -_
    push Not
    linarith

/-- **C131** (partial, as `C131_descends_partial`): the minimisation ends, for every limit and tolerance. -/
theorem C131_ends_partial (hw : Weighs Cy w (data.map Prod.snd)) (hpos : ∀ d ∈ data, 0 < w d.2) (hx : ∀ d ∈ data, ∀ k, 0 ≤ d.1 k)
    (hL0 : 0 ≤ L) (hL : L ≤ 1) (limit : ℕ) (tol : ℝ) {eta : Mat K C ℝ} (he : ∀ k, 0 ≤ ∑ c, eta k c) :
    ∃ eta' es, ExtMStep (problem R data Cy L) limit tol eta eta' es := by
  have key : ∀ n i : ℕ, limit ≤ i + n → ∀ (x : Mat K C ℝ) (init : Ext), Balanced x → (∀ d ∈ data, Fits R (scores x d.1)) →
      ∃ x' es, ExtDescent (problem R data Cy L) (1 / 1000) (1 / 2) limit tol x (.fin (keptObjective R data w L x)) i init x' es := by
    intro n
    induction n with
    | zero =>
      intro i hi x init _ _
      exact ⟨_, _, .stop fun h => by have := h.1; omega⟩
    | succ n ih =>
      intro i hi x init hb hf
      by_cases hg : goesOn limit tol init (.fin (keptObjective R data w L x)) i
      · obtain ⟨x', v, hs⟩ := search_ends (L := L) hw hpos hx hL0 hL (b := 1 / 1000) (by norm_num) hb hf
        obtain ⟨s1, s2, s3, _⟩ := search_balanced hw hpos hx hL0 hL (by norm_num) hb hf hs
        subst s3
        obtain ⟨xf, es, h⟩ := ih (i + 1) (by omega) x' (.fin (keptObjective R data w L x)) s1 s2
        exact ⟨xf, _, .again hg (gradient_fits hw hf) hs h⟩
      · exact ⟨_, _, .stop hg⟩
  rcases value_balanced (R := R) (L := L) hw hpos hx he with ⟨hf, hv⟩ | hv
  · obtain ⟨x', es, h⟩ := key limit 0 (by omega) eta .pinf he hf
    exact ⟨x', es, _, hv, h⟩
  · exact ⟨eta, _, .pinf, hv, .stop fun h => h.2⟩

/-! ### C131: values that are not finite -/

/-- C131, the full statement is false: if the objective is not finite at the weights before the M step, for whatever
problem, the weights are left as they are; the only sign is the event with that value. -/
theorem C131_stops {pr : ExtProblem r c} {limit : ℕ} {tol : ℝ} {x : Mat r c ℝ} {v : Ext} (hv : pr.value x = some v)
    (hn : ∀ a, v ≠ .fin a) (x' : Mat r c ℝ) (es : List Ext) :
    ExtMStep pr limit tol x x' es ↔ x' = x ∧ es = [eNeg v] := by
  have hno : ∀ i, ¬ goesOn limit tol .pinf v i := by
    rintro i ⟨_, h⟩
    cases v with
    | fin a => exact hn a rfl
    | pinf => exact h
    | ninf => exact h
    | nan => exact h
  constructor
  · rintro ⟨v', hv', h⟩
    have : v' = v := Option.some.inj (hv'.symm.trans hv)
    subst this
    cases h with
    | stop _ => exact ⟨rfl, rfl⟩
    | again h _ _ _ => exact absurd h (hno 0)
  · rintro ⟨rfl, rfl⟩
    exact ⟨v, hv, .stop (hno 0)⟩

/-- The weighted mean of numbers that are at least `b`. -/
theorem score_ge {eta : Mat K C ℝ} {x : Vec K ℝ} (hx : ∀ k, 0 ≤ x k) (h1 : ∑ k, x k = 1) {b : ℝ} {c : Fin C}
    (hb : ∀ k, b ≤ eta k c) : b ≤ scores eta x c := by
  unfold scores
  calc b = ∑ k, b * x k := by rw [← Finset.mul_sum, h1, mul_one]
    _ ≤ _ := Finset.sum_le_sum fun k _ => mul_le_mul_of_nonneg_right (hb k) (hx k)

theorem score_lt {eta : Mat K C ℝ} {x : Vec K ℝ} (hx : ∀ k, 0 ≤ x k) (h1 : ∑ k, x k = 1) {b : ℝ} {c : Fin C}
    (hb : ∀ k, eta k c < b) : scores eta x c < b := by
  unfold scores
  have : ∃ k, 0 < x k := by
    by_contra hc
    push Not at hc
    have := Finset.sum_nonpos fun k (_ : k ∈ univ) => hc k
    linarith
  obtain ⟨k, hk⟩ := this
  calc _ < ∑ k, b * x k := Finset.sum_lt_sum (fun k _ => mul_le_mul_of_nonneg_right (hb k).le (hx k))
        ⟨k, mem_univ k, mul_lt_mul_of_pos_right (hb k) hk⟩
    _ = b := by rw [← Finset.mul_sum, h1, mul_one]

/-- C131, the full statement is false: for every corpus, if the weights of one class are too large for the exponential
the objective is infinite and the M step does nothing. -/
theorem C131_overflow (hw : Weighs Cy w (data.map Prod.snd)) (hpos : ∀ d ∈ data, 0 < w d.2)
    (hx : ∀ d ∈ data, (∀ k, 0 ≤ d.1 k) ∧ ∑ k, d.1 k = 1) (hne : data ≠ []) {eta : Mat K C ℝ} {c : Fin C}
    (hc : ∀ k, R.hi ≤ eta k c) {limit : ℕ} {tol : ℝ} (eta' : Mat K C ℝ) (es : List Ext) :
    ExtMStep (problem R data Cy L) limit tol eta eta' es ↔ eta' = eta ∧ es = [.ninf] := by
  have hb : ∀ d ∈ data, Bursts R (scores eta d.1) := fun d hd => Or.inl ⟨c, score_ge (hx d hd).1 (hx d hd).2 hc⟩
  obtain ⟨d, hd⟩ := List.exists_mem_of_ne_nil data hne
  have hv : (problem R data Cy L).value eta = some .pinf :=
    value_bursts (L := L) hw hpos (fun d hd => Or.inr (hb d hd)) ⟨d, hd, hb d hd⟩
  exact C131_stops hv (fun a h => by cases h) eta' es

theorem limitedLoop_pinf (hw : Weighs Cy w (data.map Prod.snd)) (hpos : ∀ d ∈ data, 0 < w d.2) {eta : Mat K C ℝ}
    (h : ∀ d ∈ data, ∀ c, scores eta d.1 c < R.lo) :
    limitedLoop R Cy eta (data.map fun d => (d.2 : ℤ)) (data.map Prod.fst) .pinf = some .pinf := by
  induction data with
  | nil => simp [limitedLoop]
  | cons d ds ih =>
    rw [limitedLoop_cons hw, eLog_zero (h d (by simp)), mul_ninf (hpos d (by simp))]
    exact ih (weighs_tail hw) (fun d' hd' => hpos d' (by simp [hd'])) fun d' hd' => h d' (by simp [hd'])

/-- C131, the full statement is false: if all weights are too small the objective is minus infinity, better than every
other one, and the M step does nothing. -/
theorem C131_underflow (hw : Weighs Cy w (data.map Prod.snd)) (hpos : ∀ d ∈ data, 0 < w d.2)
    (hx : ∀ d ∈ data, (∀ k, 0 ≤ d.1 k) ∧ ∑ k, d.1 k = 1) (hne : data ≠ []) {eta : Mat K C ℝ}
    (hc : ∀ k c, eta k c < R.lo) {limit : ℕ} {tol : ℝ} (eta' : Mat K C ℝ) (es : List Ext) :
    ExtMStep (problem R data Cy L) limit tol eta eta' es ↔ eta' = eta ∧ es = [.pinf] := by
  have hz : ∀ d ∈ data, ∀ c, scores eta d.1 c < R.lo := fun d hd c => score_lt (hx d hd).1 (hx d hd).2 fun k => hc k c
  have hv : (problem R data Cy L).value eta = some .ninf := by
    show limitedValue R _ _ Cy L eta = _
    unfold limitedValue
    cases data with
    | nil => exact absurd rfl hne
    | cons d ds =>
      rw [limitedLoop_cons hw, eLog_zero (hz d (by simp)), mul_ninf (hpos d (by simp))]
      show (limitedLoop R Cy eta _ _ .pinf).map _ = _
      rw [limitedLoop_pinf (weighs_tail hw) (fun d' hd' => hpos d' (by simp [hd'])) fun d' hd' => hz d' (by simp [hd'])]
      rfl
  exact C131_stops hv (fun a h => by cases h) eta' es

end Verif.Optim
