import Mathlib.Analysis.SpecificLimits.Normed
import Mathlib.Algebra.Order.Field.GeomSum
import Mathlib.Algebra.Field.GeomSum
import Verif.Props.Online

/-
What the topics learnt by the online step owe to the topics at the start and to minibatches of long ago (C153).
-/
namespace Verif.MStep

open MathUtils EStep Optim Finset Filter Topology

variable {K V C : ℕ}

/-- Topics updated `(number of documents) / m` times: each time a mean, with the weights `w` and `1 - w`, of the topics
before and of the shares of the words among all documents so far. -/
noncomputable def blended (w : ℝ) (m : ℕ) (beta : Mat K V ℝ) (ds : List (Given K V)) : Mat K V ℝ := fun k n =>
  w ^ (ds.length / m) * beta k n + (1 - w) * ∑ i ∈ range (ds.length / m), w ^ (ds.length / m - 1 - i) *
    (expectedCounts (ds.take ((i + 1) * m)) k n / topicMass (ds.take ((i + 1) * m)) k)

theorem blended_same {w : ℝ} {m : ℕ} {beta : Mat K V ℝ} {ds : List (Given K V)} (d : Given K V)
    (hn : ¬ m ∣ ds.length + 1) : blended w m beta (ds ++ [d]) = blended w m beta ds := by
  have e : (ds ++ [d]).length / m = ds.length / m := by
    rw [List.length_append, List.length_singleton, Nat.succ_div, if_neg hn, add_zero]
  funext k n
  simp only [blended, e]
  congr 2
  refine sum_congr rfl fun i hi => ?_
  have hle : (i + 1) * m ≤ ds.length :=
    (Nat.mul_le_mul_right m (mem_range.1 hi)).trans (Nat.div_mul_le_self _ _)
  rw [List.take_append_of_le_length hle]

theorem blended_next {w : ℝ} {m : ℕ} {beta : Mat K V ℝ} {ds : List (Given K V)} (d : Given K V)
    (hn : m ∣ ds.length + 1) : blended w m beta (ds ++ [d]) = fun k n => w * blended w m beta ds k n +
      (1 - w) * (expectedCounts (ds ++ [d]) k n / topicMass (ds ++ [d]) k) := by
  have e : (ds ++ [d]).length / m = ds.length / m + 1 := by
    rw [List.length_append, List.length_singleton, Nat.succ_div, if_pos hn]
  have e' : (ds.length / m + 1) * m = (ds ++ [d]).length := by
    rw [← e]
    exact Nat.div_mul_cancel (by simpa using hn)
  funext k n
  simp only [blended, e, sum_range_succ, e', List.take_length, Nat.add_sub_cancel, Nat.sub_self, pow_zero, one_mul]
  have : ∀ i ∈ range (ds.length / m), w ^ (ds.length / m - i) *
      (expectedCounts ((ds ++ [d]).take ((i + 1) * m)) k n / topicMass ((ds ++ [d]).take ((i + 1) * m)) k) =
      w * (w ^ (ds.length / m - 1 - i) *
      (expectedCounts (ds.take ((i + 1) * m)) k n / topicMass (ds.take ((i + 1) * m)) k)) := by
    intro i hi
    have hle : (i + 1) * m ≤ ds.length :=
      (Nat.mul_le_mul_right m (mem_range.1 hi)).trans (Nat.div_mul_le_self _ _)
    have hi' := mem_range.1 hi
    rw [List.take_append_of_le_length hle, ← mul_assoc, ← pow_succ',
      show ds.length / m - 1 - i + 1 = ds.length / m - i by omega]
  rw [sum_congr rfl this, ← mul_sum]
  ring

/-- **C153**, what the topics are after any history of calls of the online step in which every topic had words in every
completed part of it. -/
theorem C153_topics {cfg : OnlineCfg C} (hmb : 0 < cfg.minibatch) {beta : Mat K V ℝ} {eta : Mat K C ℝ}
    {h : List (Call (DocArg K V) Unit)} {s : OnlineState K V C} {ev : List (Option ℝ)}
    (hs : onlineHistory cfg beta eta h = some (s, ev))
    (hm : ∀ i, 0 < i → i * cfg.minibatch ≤ (given h).length → ∀ k,
      topicMass (((given h).take (i * cfg.minibatch)).map Prod.snd) k ≠ 0) :
    s.beta = some (blended cfg.betaWeight cfg.minibatch beta ((given h).map Prod.snd)) := by
  induction h using List.reverseRecOn generalizing s ev with
  | nil =>
    have : (s, ev) = (⟨none, 0, some beta, some eta⟩, []) := by
      simpa [onlineHistory, history] using hs.symm
    obtain ⟨rfl, rfl⟩ := Prod.mk.inj this
    refine congrArg some ?_
    funext k n
    simp [blended, given]
  | append_singleton h c ih =>
    have hs' := hs
    rw [onlineHistory, history_snoc, Option.bind_eq_some_iff] at hs
    obtain ⟨⟨s1, ev1⟩, h1, h2⟩ := hs
    have hs1 : onlineHistory cfg beta eta h = some (s1, ev1) := h1
    have hI := onlineHistory_is hmb hs1
    rw [given_snoc] at hm ⊢
    cases c with
    | step b =>
      simp only [hI.step hmb, Option.map_some, List.append_nil, Option.some.injEq] at h2
      obtain ⟨rfl, rfl⟩ := Prod.mk.inj h2
      exact ih hs1 hm
    | doc d =>
      simp only at hm ⊢
      have hb := ih hs1 fun i hi hle k => by
        have := hm i hi (by simp; omega) k
        rwa [List.take_append_of_le_length hle] at this
      rw [List.map_append, List.map_singleton]
      by_cases hn : cfg.minibatch ∣ (given h).length + 1
      · obtain ⟨q, hq⟩ := hn
        have hq' : q * cfg.minibatch = (given h ++ [d]).length := by
          rw [List.length_append, List.length_singleton, hq, Nat.mul_comm]
        have hmass : ∀ k, topicMass ((given h ++ [d]).map Prod.snd) k ≠ 0 := by
          intro k
          have := hm q (by
            rcases Nat.eq_zero_or_pos q with rfl | hq0
            · simp at hq
            · exact hq0) hq'.le k
          rwa [hq', List.take_length] at this
        rw [C53_all_documents hmb hs1 d ⟨q, hq⟩ hb hs' hmass,
          blended_next d.2 (by rw [List.length_map]; exact ⟨q, hq⟩)]
        simp only [List.map_append, List.map_singleton]
      · obtain ⟨s', h3, h4, _⟩ := C52_between hmb hs1 d hn
        rw [h3] at hs'
        obtain ⟨rfl, rfl⟩ := Prod.mk.inj (Option.some.inj hs')
        rw [h4, hb, blended_same d.2 (by rw [List.length_map]; exact hn)]

/-- **C153** (partial: the topics at the start; the documents do not fade, see `C153_lasting`). With the same documents,
what is left of a difference between the topics at the start is multiplied by `beta_weight` with every minibatch. -/
theorem C153_start_partial {cfg : OnlineCfg C} (hmb : 0 < cfg.minibatch) {beta beta' : Mat K V ℝ} {eta eta' : Mat K C ℝ}
    {h : List (Call (DocArg K V) Unit)} {s s' : OnlineState K V C} {ev ev' : List (Option ℝ)}
    (hs : onlineHistory cfg beta eta h = some (s, ev)) (hs' : onlineHistory cfg beta' eta' h = some (s', ev'))
    (hm : ∀ i, 0 < i → i * cfg.minibatch ≤ (given h).length → ∀ k,
      topicMass (((given h).take (i * cfg.minibatch)).map Prod.snd) k ≠ 0) :
    ∃ b b', s.beta = some b ∧ s'.beta = some b' ∧
      ∀ k n, b k n - b' k n = cfg.betaWeight ^ ((given h).length / cfg.minibatch) * (beta k n - beta' k n) := by
  refine ⟨_, _, C153_topics hmb hs hm, C153_topics hmb hs' hm, fun k n => ?_⟩
  simp only [blended, List.length_map]
  ring

/-- More documents have more words. -/
theorem expectedCounts_take {ds : List (Given K V)} (hphi : ∀ d ∈ ds, ∀ k n, 0 ≤ d.2.phi k n) {i j : ℕ} (hij : i ≤ j) (k : Fin K)
    (n : Fin V) : 0 ≤ expectedCounts (ds.take i) k n ∧
      expectedCounts (ds.take i) k n ≤ expectedCounts (ds.take j) k n := by
  refine ⟨expectedCounts_nonneg (fun a ha => hphi a (List.mem_of_mem_take ha)) k n, ?_⟩
  have e : ds.take j = ds.take i ++ (ds.take j).drop i := by
    conv_lhs => rw [← List.take_append_drop i (ds.take j), List.take_take, min_eq_left hij]
  have h := expectedCounts_nonneg (ds := (ds.take j).drop i)
    (fun a ha => hphi a (List.mem_of_mem_take (List.mem_of_mem_drop ha))) k n
  rw [e]
  simp only [expectedCounts, List.map_append, List.sum_append] at h ⊢
  linarith

/-- **C153**, the full statement is false for the documents: however many minibatches follow, the share of a word in a
topic is at least what the first minibatch said, among all the words that the topic ever got. -/
theorem C153_lasting {cfg : OnlineCfg C} (hmb : 0 < cfg.minibatch) (hw0 : 0 ≤ cfg.betaWeight) (hw1 : cfg.betaWeight ≤ 1)
    {beta : Mat K V ℝ} {eta : Mat K C ℝ}
    {h : List (Call (DocArg K V) Unit)} {s : OnlineState K V C} {ev : List (Option ℝ)}
    (hs : onlineHistory cfg beta eta h = some (s, ev)) (hphi : ∀ d ∈ given h, ∀ k n, 0 ≤ d.2.2.phi k n)
    (hm : ∀ k, 0 < topicMass (((given h).take cfg.minibatch).map Prod.snd) k) :
    ∃ b, s.beta = some b ∧ ∀ k n,
      cfg.betaWeight ^ ((given h).length / cfg.minibatch) * beta k n +
        (1 - cfg.betaWeight ^ ((given h).length / cfg.minibatch)) *
          (expectedCounts (((given h).take cfg.minibatch).map Prod.snd) k n / topicMass ((given h).map Prod.snd) k) ≤ b k n := by
  have hphi' : ∀ d ∈ (given h).map Prod.snd, ∀ k n, 0 ≤ d.2.phi k n := by
    intro d hd
    obtain ⟨a, ha, rfl⟩ := List.mem_map.1 hd
    exact hphi a ha
  have hmass : ∀ i j, i ≤ j → ∀ k, topicMass (((given h).map Prod.snd).take i) k ≤
      topicMass (((given h).map Prod.snd).take j) k :=
    fun i j hij k => sum_le_sum fun n _ => (expectedCounts_take hphi' hij k n).2
  rw [List.map_take] at hm ⊢
  refine ⟨_, C153_topics hmb hs fun i hi _ k => ?_, fun k n => ?_⟩
  · rw [List.map_take]
    exact ((hm k).trans_le (hmass _ _ (Nat.le_mul_of_pos_left _ hi) k)).ne'
  simp only [blended, List.length_map]
  set N := (given h).length / cfg.minibatch
  set q := expectedCounts (((given h).map Prod.snd).take cfg.minibatch) k n / topicMass ((given h).map Prod.snd) k
  have hall : ∀ j, topicMass (((given h).map Prod.snd).take j) k ≤ topicMass ((given h).map Prod.snd) k := by
    intro j
    rcases le_total j ((given h).map Prod.snd).length with hj | hj
    · have := hmass j _ hj k
      rwa [List.take_length] at this
    · rw [List.take_of_length_le hj]
  have hterm : ∀ i ∈ range N, cfg.betaWeight ^ (N - 1 - i) * q ≤ cfg.betaWeight ^ (N - 1 - i) *
      (expectedCounts (((given h).map Prod.snd).take ((i + 1) * cfg.minibatch)) k n /
        topicMass (((given h).map Prod.snd).take ((i + 1) * cfg.minibatch)) k) := by
    intro i _
    refine mul_le_mul_of_nonneg_left ?_ (pow_nonneg hw0 _)
    have hle : cfg.minibatch ≤ (i + 1) * cfg.minibatch := Nat.le_mul_of_pos_left _ (Nat.succ_pos i)
    have hc := expectedCounts_take hphi' hle k n
    exact div_le_div₀ (hc.1.trans hc.2) hc.2 ((hm k).trans_le (hmass _ _ hle k)) (hall _)
  have hgeom : (1 - cfg.betaWeight) * ∑ i ∈ range N, cfg.betaWeight ^ (N - 1 - i) = 1 - cfg.betaWeight ^ N := by
    rw [sum_range_reflect (fun i => cfg.betaWeight ^ i) N]
    exact mul_neg_geom_sum cfg.betaWeight N
  have := mul_le_mul_of_nonneg_left (sum_le_sum hterm) (sub_nonneg.2 hw1)
  rw [← sum_mul, ← mul_assoc, hgeom] at this
  linarith

/-- One topic, two words, one class, minibatches of one document. -/
noncomputable def fadeCfg (w : ℝ) : OnlineCfg 1 :=
  { classWeights := fun _ => 1, penalty := 0, minibatch := 1, momentum := 0, rate := 1, betaWeight := w }

/-- A document with the first word or with the second one, then `n` documents with the second one. -/
noncomputable def fadeCalls (first : Bool) (n : ℕ) : List (Call (DocArg 1 2) Unit) :=
  .doc (if first then onlineDoc1 1 0 else onlineDoc1 0 1) :: List.replicate n (.doc (onlineDoc1 0 1))

theorem fade_given (first : Bool) (n : ℕ) : given (fadeCalls first n) =
    (if first then onlineDoc1 1 0 else onlineDoc1 0 1) :: List.replicate n (onlineDoc1 0 1) := by
  have : ∀ n, given (List.replicate n (.doc (onlineDoc1 0 1) : Call (DocArg 1 2) Unit)) = List.replicate n (onlineDoc1 0 1) := by
    intro n
    induction n with
    | zero => rfl
    | succ n ih => rw [List.replicate_succ, List.replicate_succ, ← ih]; rfl
  rw [← this]
  rfl

theorem fade_counts (first : Bool) (n : ℕ) :
    expectedCounts ((given (fadeCalls first n)).map Prod.snd) 0 0 = (if first then 1 else 0) ∧
    topicMass ((given (fadeCalls first n)).map Prod.snd) 0 = n + 1 := by
  rw [fade_given]
  cases first <;>
  · simp [expectedCounts, topicMass, onlineDoc1, Fin.sum_univ_two, List.map_replicate, List.sum_replicate]
    try ring

/-- **C153**, the full statement is false: exchange the word of the first document. The topics are told apart by this after
any number of further minibatches, and not by a part that shrinks with `beta_weight`: no multiple of its powers bounds it. -/
theorem C153_documents_false {w : ℝ} (hw0 : 0 ≤ w) (hw1 : w < 1) (beta : Mat 1 2 ℝ) (eta : Mat 1 1 ℝ) :
    (∀ n : ℕ, ∃ s ev b s' ev' b', onlineHistory (fadeCfg w) beta eta (fadeCalls true n) = some (s, ev) ∧ s.beta = some b ∧
      onlineHistory (fadeCfg w) beta eta (fadeCalls false n) = some (s', ev') ∧ s'.beta = some b' ∧
      (1 - w) / (n + 1) ≤ b 0 0 - b' 0 0) ∧
    ∀ c : ℝ, ∃ n : ℕ, c * w ^ n < (1 - w) / (n + 1) := by
  constructor
  · intro n
    have hdef : ∀ f, ∃ s ev, onlineHistory (fadeCfg w) beta eta (fadeCalls f n) = some (s, ev) := by
      intro f
      refine C52_defined (by simp [fadeCfg]) beta eta _ fun d hd => ?_
      rw [fade_given] at hd
      rcases List.mem_cons.1 hd with rfl | hd
      · cases f <;> simp [onlineDoc1]
      · rw [List.eq_of_mem_replicate hd]
        simp [onlineDoc1]
    have hphi : ∀ f, ∀ d ∈ given (fadeCalls f n), ∀ k v, 0 ≤ d.2.2.phi k v := by
      intro f d hd k v
      rw [fade_given] at hd
      rcases List.mem_cons.1 hd with rfl | hd
      · cases f <;> simp [onlineDoc1]
      · rw [List.eq_of_mem_replicate hd]
        simp [onlineDoc1]
    have hlen : ∀ f, (given (fadeCalls f n)).length / (fadeCfg w).minibatch = n + 1 := by
      intro f
      rw [fade_given]
      simp [fadeCfg]
    have hfirst : ∀ f, (given (fadeCalls f n)).take (fadeCfg w).minibatch = given (fadeCalls f 0) := by
      intro f
      rw [fade_given, fade_given]
      simp [fadeCfg]
    have hm : ∀ f k, 0 < topicMass (((given (fadeCalls f n)).take (fadeCfg w).minibatch).map Prod.snd) k := by
      intro f k
      rw [hfirst, Subsingleton.elim k 0, (fade_counts f 0).2]
      norm_num
    obtain ⟨s, ev, hs⟩ := hdef true
    obtain ⟨s', ev', hs'⟩ := hdef false
    obtain ⟨b, hb, hle⟩ := C153_lasting (by simp [fadeCfg]) hw0 hw1.le hs (hphi true) (hm true)
    have hb' := C153_topics (by simp [fadeCfg]) hs' fun i hi _ k => by
      rw [List.map_take]
      have h1 := hm false k
      rw [List.map_take] at h1
      refine (h1.trans_le (sum_le_sum fun v _ => (expectedCounts_take (fun d hd => ?_) (Nat.le_mul_of_pos_left _ hi) k v).2)).ne'
      obtain ⟨a, ha, rfl⟩ := List.mem_map.1 hd
      exact hphi false a ha
    refine ⟨s, ev, b, s', ev', _, hs, hb, hs', hb', ?_⟩
    have h0 := hle 0 0
    rw [hlen, hfirst, (fade_counts true 0).1, (fade_counts true n).2] at h0
    have hz : ∀ i, expectedCounts (((given (fadeCalls false n)).map Prod.snd).take i) 0 0 = 0 := by
      intro i
      rcases le_total i ((given (fadeCalls false n)).map Prod.snd).length with hi | hi
      · have h1 := expectedCounts_take (ds := (given (fadeCalls false n)).map Prod.snd) (fun d hd => by
          obtain ⟨a, ha, rfl⟩ := List.mem_map.1 hd
          exact hphi false a ha) hi 0 0
        rw [List.take_length, (fade_counts false n).1] at h1
        exact le_antisymm (by simpa using h1.2) h1.1
      · rw [List.take_of_length_le hi, (fade_counts false n).1]
        rfl
    have hbl : blended (fadeCfg w).betaWeight (fadeCfg w).minibatch beta ((given (fadeCalls false n)).map Prod.snd) 0 0 =
        w ^ (n + 1) * beta 0 0 := by
      simp only [blended, List.length_map, hlen, hz, zero_div, mul_zero, sum_const_zero, add_zero]
      rfl
    rw [hbl]
    have hp : w ^ (n + 1) ≤ w := by
      rw [pow_succ]
      exact mul_le_of_le_one_left hw0 (pow_le_one₀ hw0 hw1.le)
    have hn : (0 : ℝ) < n + 1 := by positivity
    have h1 : (1 - w) / (n + 1) ≤ (1 - w ^ (n + 1)) * (1 / (n + 1)) := by
      rw [mul_one_div]
      exact div_le_div_of_nonneg_right (by linarith) hn.le
    simp only [fadeCfg, if_true] at h0
    linarith
  · intro c
    have ht : Tendsto (fun n : ℕ => c * ((n : ℝ) * w ^ n + w ^ n)) atTop (𝓝 (c * (0 + 0))) :=
      ((tendsto_self_mul_const_pow_of_lt_one hw0 hw1).add (tendsto_pow_atTop_nhds_zero_of_lt_one hw0 hw1)).const_mul c
    rw [add_zero, mul_zero] at ht
    obtain ⟨n, hn⟩ := (ht.eventually_lt_const (sub_pos.2 hw1)).exists
    refine ⟨n, (lt_div_iff₀ (by positivity)).2 ?_⟩
    calc c * w ^ n * (n + 1) = c * (n * w ^ n + w ^ n) := by ring
      _ < 1 - w := hn

/-- The hypotheses of `C153_start_partial` are met by five documents in minibatches of one, whatever the topics at the start. -/
example (w : ℝ) (beta beta' : Mat 1 2 ℝ) (eta : Mat 1 1 ℝ) : ∃ s ev s' ev' b b',
    onlineHistory (fadeCfg w) beta eta (fadeCalls true 4) = some (s, ev) ∧
    onlineHistory (fadeCfg w) beta' eta (fadeCalls true 4) = some (s', ev') ∧ s.beta = some b ∧ s'.beta = some b' ∧
    ∀ k n, b k n - b' k n = w ^ 5 * (beta k n - beta' k n) := by
  have hdef : ∀ beta, ∃ s ev, onlineHistory (fadeCfg w) beta eta (fadeCalls true 4) = some (s, ev) := fun beta =>
    C52_defined (by simp [fadeCfg]) beta eta _ fun d hd => by
      rw [fade_given] at hd
      rcases List.mem_cons.1 hd with rfl | hd
      · simp [onlineDoc1]
      · rw [List.eq_of_mem_replicate hd]
        simp [onlineDoc1]
  obtain ⟨s, ev, hs⟩ := hdef beta
  obtain ⟨s', ev', hs'⟩ := hdef beta'
  obtain ⟨b, b', hb, hb', h⟩ := C153_start_partial (by simp [fadeCfg]) hs hs' fun i hi hle k => by
    rw [fade_given] at hle ⊢
    have hle' : i ≤ 5 := by simpa [fadeCfg] using hle
    rw [Subsingleton.elim k 0]
    interval_cases i <;> simp [fadeCfg, topicMass, expectedCounts, onlineDoc1, Fin.sum_univ_two] <;> norm_num
  refine ⟨s, ev, s', ev', b, b', hs, hs', hb, hb', fun k n => ?_⟩
  have := h k n
  rw [fade_given] at this
  simpa [fadeCfg] using this

end Verif.MStep
