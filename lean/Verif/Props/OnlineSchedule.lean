import Verif.Props.Fit
import Verif.Props.Online
import Verif.Props.EStep
import Verif.Model.Train

/-! Property C09: what the result of training with the online step depends on. -/
namespace Verif.Pool

variable {M P R : Type}

/-! ### One document at a time -/

/-- In the schedule `as` the E step of a document starts only when every earlier document of the corpus has
been given to the M step. -/
def OneAtATime (c : Cfg M P R) (m : M) (as : List Act) : Prop :=
  ∀ (pre post : List Act) (w : Fin c.W) (i : ℕ) (s : St M R c.W), as = pre ++ .worker w :: post →
    run c (init c m) pre = some s → s.ws w = .work i → ∀ i' < i, i' ∈ (consumed s.log).map Prod.fst

/-- The sequential algorithm: E step and `doc_m_step` of one document after the other, each with the
parameters left by the one before. -/
def oneByOne (c : Cfg M P R) (m : M) (n : ℕ) : M :=
  (List.range n).foldl (fun m i => (c.docStep i (c.eval (c.params m) i) m).1) m

theorem oneByOne_succ (c : Cfg M P R) (m : M) (n : ℕ) :
    oneByOne c m (n + 1) =
      (c.docStep n (c.eval (c.params (oneByOne c m n)) n) (oneByOne c m n)).1 := by
  simp [oneByOne, List.range_succ]

/-- The documents handed over are the first ones, in order, and a result on its way is that of the next one,
for the current parameters. -/
structure OneInv (c : Cfg M P R) (m : M) (s : St M R c.W) : Prop where
  order : (consumed s.log).map Prod.fst = List.range (consumed s.log).length
  model : seqDocs c m (consumed s.log) = oneByOne c m (consumed s.log).length
  push : ∀ w i r, s.ws w = .push i r → i = (consumed s.log).length ∧
    r = c.eval (c.params (seqDocs c m (consumed s.log))) i
  qout : ∀ r i, (r, i) ∈ s.qout → i = (consumed s.log).length ∧
    r = c.eval (c.params (seqDocs c m (consumed s.log))) i
  main : ∀ k i r, s.main = .got k i r ∨ s.main = .mid k i r → i = (consumed s.log).length ∧
    r = c.eval (c.params (seqDocs c m (consumed s.log))) i

theorem model_of_work {c : Cfg M P R} {m : M} {s : St M R c.W} (h : Reachable c m s) {w : Fin c.W} {i : ℕ}
    (hw : s.ws w = .work i) : s.model = seqDocs c m (consumed s.log) := by
  have h1 := inv_model s h
  have h2 := inv_born s h
  cases hm : s.main <;> simp only [hm, ModelP, BornP] at h1 h2
  case post => exact absurd (h2 w) (by simp [hw])
  case epoch => exact absurd (h2 w) (by simp [hw])
  case ret => exact absurd (h2 w) (by simp [hw])
  all_goals exact h1

theorem one_inv {c : Cfg M P R} {m : M} (hk : c.kind = .partialFit) (as : List Act) :
    ∀ s, OneAtATime c m as → run c (init c m) as = some s → OneInv c m s := by
  induction as using List.reverseRecOn with
  | nil =>
    rintro s - h
    cases h
    refine ⟨rfl, rfl, ?_, ?_, ?_⟩ <;> simp [init, start, Left.empty]
  | append_singleton as a ih =>
    intro s' hone hrun
    rw [run_append] at hrun
    obtain ⟨s, hs, hstep⟩ := Option.bind_eq_some_iff.1 hrun
    have hstep' : step c s a = some s' := by
      simp only [run] at hstep
      split at hstep
      · cases hstep
      · rename_i s1 h1
        cases hstep
        exact h1
    have hR : Reachable c m s := ⟨as, hs⟩
    have hI : OneInv c m s := ih s (fun pre post w i s1 e => hone pre (post ++ [a]) w i s1 (by simp [e])) hs
    have hlast : ∀ (w : Fin c.W) (i : ℕ), a = .worker w → s.ws w = .work i →
        ∀ i' < i, i' ∈ (consumed s.log).map Prod.fst := by
      intro w i ha hw
      exact hone as [] w i s (by rw [ha]) hs hw
    have htok := inv_tok s hR
    have keep : ∀ (j : Fin c.W) (v : WPc R), (∀ i r, v ≠ .push i r) → ∀ w i r, setW s.ws j v w = .push i r →
        s.ws w = .push i r := by
      intro j v hv w i r h
      by_cases e : w = j
      · subst e; rw [setW_same] at h; exact absurd h (hv i r)
      · rwa [setW_ne _ _ e] at h
    obtain ⟨h1, h2, h3, h4, h5⟩ := hI
    cases trans_of_step hstep' with
    | fetchDone j h hq => exact ⟨h1, h2, fun w i r hw => h3 w i r (keep j _ (by simp) w i r hw), h4, h5⟩
    | fetchJob j i' q h hq => exact ⟨h1, h2, fun w i r hw => h3 w i r (keep j _ (by simp) w i r hw), h4, h5⟩
    | work j i' h =>
      refine ⟨h1, h2, fun w i r hw => ?_, h4, h5⟩
      by_cases e : w = j
      · subst e
        simp only [setW_same, WPc.push.injEq] at hw
        obtain ⟨rfl, rfl⟩ := hw
        refine ⟨?_, by rw [model_of_work hR h]⟩
        have hlt := hlast w i' rfl h
        rw [h1] at hlt
        have hge : ¬ i' < (consumed s.log).length := by
          intro hlt'
          have ht := htok i'
          have hpre : 1 ≤ ∑ w, wpre i' (s.ws w) := by
            have := Finset.single_le_sum (f := fun w => wpre i' (s.ws w)) (fun _ _ => Nat.zero_le _)
              (Finset.mem_univ w)
            simpa [h] using this
          have hc : 1 ≤ ((consumed s.log).map Prod.fst).count i' := by
            rw [List.one_le_count_iff, h1]
            exact List.mem_range.2 hlt'
          split at ht <;> omega
        rcases Nat.lt_trichotomy i' (consumed s.log).length with hh | hh | hh
        · exact absurd hh hge
        · exact hh
        · have := List.mem_range.1 (hlt _ hh)
          omega
      · exact h3 w i r (by simpa only [setW_ne _ _ e] using hw)
    | push j i' r' h =>
      refine ⟨h1, h2, fun w i r hw => h3 w i r (keep j _ (by simp) w i r hw), fun r i hm => ?_, h5⟩
      rcases List.mem_append.1 hm with hm | hm
      · exact h4 r i hm
      · simp only [List.mem_singleton, Prod.mk.injEq] at hm
        obtain ⟨rfl, rfl⟩ := hm
        exact h3 j _ _ h
    | notify j h =>
      refine ⟨h1, h2, fun w i r hw => h3 w i r (keep j _ (by simp) w i r hw), h4, fun k i r hm => ?_⟩
      cases hmm : s.main <;> simp only [hmm, wake] at hm <;> try (simp at hm)
      · exact h5 k i r (by rw [hmm]; simpa using hm)
      · exact h5 k i r (by rw [hmm]; simpa using hm)
    | spawn j hj h =>
      refine ⟨h1, h2, fun w i r hw => h3 w i r (keep ⟨j, hj⟩ _ (by simp) w i r hw), h4, ?_⟩
      simp
    | spawned j hj h => exact ⟨h1, h2, h3, h4, by simp⟩
    | wait k hk h hq => exact ⟨h1, h2, h3, h4, by simp⟩
    | extract k i' r q hk' h hq =>
      refine ⟨h1, h2, h3, fun r i hm => h4 r i (by rw [hq]; exact List.mem_cons_of_mem _ hm), ?_⟩
      intro k' i r' hm
      simp only [MPc.got.injEq, reduceCtorEq, or_false] at hm
      obtain ⟨_, rfl, rfl⟩ := hm
      exact h4 _ _ (by rw [hq]; exact List.mem_cons_self)
    | loopEnd k hk h => exact ⟨h1, h2, h3, h4, by simp⟩
    | pfProcess k i' r hk' h =>
      have hlog : consumed (flush s).log = consumed s.log := by simp
      refine ⟨by simpa [hlog] using h1, by simpa [hlog] using h2, by simpa [hlog] using h3,
        by simpa [hlog] using h4, ?_⟩
      intro k' i r' hm
      simp only [hlog, MPc.mid.injEq, reduceCtorEq, false_or] at hm ⊢
      obtain ⟨_, rfl, rfl⟩ := hm
      exact h5 k _ _ (.inl h)
    | trConsume k i' r hk' h => rw [hk] at hk'; cases hk'
    | pfConsume k i' r hk' h =>
      obtain ⟨e1, e2⟩ := h5 k i' r (.inr h)
      have hlog : consumed (consume c s i' r).log = consumed s.log ++ [(i', r)] := by simp
      have ht := htok i'
      have hmt : mtok c.kind i' s.main = 1 := by simp [h, hk]
      have hpost : ∀ w r', s.ws w ≠ .push i' r' := by
        intro w r' hw
        have : 1 ≤ ∑ w, wpost i' (s.ws w) := by
          have := Finset.single_le_sum (f := fun w => wpost i' (s.ws w)) (fun _ _ => Nat.zero_le _)
            (Finset.mem_univ w)
          simpa [hw] using this
        split at ht <;> omega
      have hqo : ∀ r', (r', i') ∉ s.qout := by
        intro r' hm
        have : 1 ≤ (s.qout.map Prod.snd).count i' := by
          rw [List.one_le_count_iff]
          exact List.mem_map.2 ⟨_, hm, rfl⟩
        split at ht <;> omega
      refine ⟨?_, ?_, ?_, ?_, by simp⟩
      · change (consumed (consume c s i' r).log).map Prod.fst = List.range (consumed (consume c s i' r).log).length
        rw [hlog, List.map_append, h1, List.length_append, List.length_singleton, List.range_succ, ← e1]
        rfl
      · change seqDocs c m (consumed (consume c s i' r).log) = oneByOne c m (consumed (consume c s i' r).log).length
        rw [hlog, seqDocs_snoc, List.length_append, List.length_singleton, oneByOne_succ, ← h2, ← e1, ← e2]
      · intro w i r' hw
        simp only [consume_ws] at hw
        obtain ⟨q1, _⟩ := h3 w i r' hw
        rw [q1, ← e1] at hw
        exact absurd hw (hpost w r')
      · intro r' i hm
        simp only [consume_qout] at hm
        obtain ⟨q1, _⟩ := h4 r' i hm
        rw [q1, ← e1] at hm
        exact absurd hm (hqo r')
    | trProcess k i' r hk' h => rw [hk] at hk'; cases hk'
    | join j hj h hd => exact ⟨h1, h2, h3, h4, by simp⟩
    | pfJoined j hj hk h => exact ⟨h1, h2, h3, h4, by simp⟩
    | trJoined j hj hk h => exact ⟨h1, h2, h3, h4, by simp⟩
    | post h =>
      refine ⟨?_, ?_, ?_, ?_, by simp⟩ <;> simpa
    | epoch h =>
      refine ⟨?_, ?_, ?_, ?_, by simp⟩ <;> simpa
    | spurious k h => exact ⟨h1, h2, h3, h4, by simp⟩

/-- **C09**, the part that holds, for every M step and any number of workers: if the E step of a document only
starts when the earlier documents have been given to the M step, the model after `partial_fit` is the one of
the sequential algorithm.  Missing: the other schedules, for which the claim is false
(`C09_one_worker_depends`, `C09_order_depends`). -/
theorem C09_one_at_a_time_partial {c : Cfg M P R} {m : M} (hk : c.kind = .partialFit) {as : List Act}
    (hone : OneAtATime c m as) {s : St M R c.W} (hrun : run c (init c m) as = some s) (hr : Returned s) :
    s.model = (c.batch (oneByOne c m c.n)).1 ∧ (consumed s.log).map Prod.fst = List.range c.n := by
  have hI := one_inv hk as s hone hrun
  have hR : Reachable c m s := ⟨as, hrun⟩
  have hlen : (consumed s.log).length = c.n := by
    have := (C01_each_document_once hR hr).1.length_eq
    simpa using this
  have hm := inv_model s hR
  have hr' : s.main = .ret := hr
  simp only [hr', ModelP, hk] at hm
  exact ⟨by rw [hm, hI.model, hlen], by rw [hI.order, hlen]⟩

/-! ### One worker -/

/-- The document in the hands of a worker. -/
def inHand : WPc R → List ℕ
  | .work i => [i]
  | .push i _ => [i]
  | _ => []

/-- The document in the hands of the calling thread. -/
def inMain : MPc R → List ℕ
  | .got _ i _ => [i]
  | .mid _ i _ => [i]
  | _ => []

theorem one_worker_inv {c : Cfg M P R} {m : M} (hk : c.kind = .partialFit) (w0 : Fin c.W)
    (hw : ∀ w : Fin c.W, w = w0) : ∀ s, Reachable c m s →
    (consumed s.log).map Prod.fst ++ inMain s.main ++ s.qout.map Prod.snd ++ inHand (s.ws w0) ++ s.qin =
      List.range c.n := by
  apply reachable_induct
  · simp [init, start, Left.empty, inMain, inHand]
  · intro s a s' hR hI ht
    cases ht with
    | fetchDone j h hq =>
      rw [hw j] at h ⊢
      simpa [h, hq, inHand] using hI
    | fetchJob j i' q h hq =>
      rw [hw j] at h ⊢
      simpa [h, hq, inHand] using hI
    | work j i' h =>
      rw [hw j] at h ⊢
      simpa [h, inHand] using hI
    | push j i' r h =>
      rw [hw j] at h ⊢
      simpa [h, inHand] using hI
    | notify j h =>
      rw [hw j] at h ⊢
      have : ∀ pc : MPc R, inMain (wake pc) = inMain pc := by intro pc; cases pc <;> rfl
      simpa [h, inHand, this] using hI
    | spawn j hj h =>
      have h3 := inv_born s hR
      simp only [h, BornP] at h3
      have h4 := (h3.2 ⟨j, hj⟩).1 (Nat.le_refl _)
      rw [hw ⟨j, hj⟩] at h4 ⊢
      simpa [h, h4, inHand, inMain] using hI
    | extract k i' r q hk' h hq => simpa [h, hq, inMain] using hI
    | pfProcess k i' r hk' h => simpa [h, inMain] using hI
    | trConsume k i' r hk' h => rw [hk] at hk'; cases hk'
    | pfConsume k i' r hk' h => simpa [h, inMain] using hI
    | trProcess k i' r hk' h => rw [hk] at hk'; cases hk'
    | _ => simp_all [inMain]

/-- **C09**: with one worker the documents reach the M step in the order of the corpus, whatever the
schedule. -/
theorem C09_one_worker_order {c : Cfg M P R} {m : M} (hk : c.kind = .partialFit) (hW : c.W = 1)
    {s : St M R c.W} (h : Reachable c m s) (hr : Returned s) :
    (consumed s.log).map Prod.fst = List.range c.n := by
  have hw : ∀ w : Fin c.W, w = ⟨0, by omega⟩ := fun w => Fin.ext (by omega)
  have h1 := one_worker_inv hk _ hw s h
  have hr' : s.main = .ret := hr
  obtain ⟨h2, h3, _⟩ := C06_nothing_left h hr
  have h4 := inv_born s h
  simp only [hr', BornP] at h4
  simpa [hr', h2, h3, h4, inMain, inHand] using h1

end Verif.Pool

namespace Verif.Train

open MathUtils EStep MStep Pool Finset

variable {K V C : ℕ} {M P R : Type}

/-! ### The schedules of the counterexamples -/

/-- A call on two documents. -/
def twoDocs (W : ℕ) (owner : Bool) (params : M → P) (eval : P → ℕ → R) (docStep : ℕ → R → M → M × ℕ)
    (batch : M → M × ℕ) : Pool.Cfg M P R where
  W := W
  n := 2
  kind := .partialFit
  owner := owner
  params := params
  eval := eval
  docStep := docStep
  batch := batch

/-- One worker; the second document is evaluated after the first has been given to the M step. -/
def lazySchedule : List Act :=
  [.main, .main, .worker 0, .worker 0, .worker 0, .worker 0, .main, .main, .main,
   .worker 0, .worker 0, .worker 0, .worker 0, .main, .main, .main, .worker 0,
   .main, .main, .main, .main, .main]

/-- One worker; both documents are evaluated before the first is given to the M step. -/
def eagerSchedule : List Act :=
  [.main, .main, .worker 0, .worker 0, .worker 0, .worker 0, .worker 0, .worker 0, .worker 0, .worker 0,
   .main, .main, .main, .main, .main, .main, .worker 0, .main, .main, .main, .main, .main]

/-- Two workers; worker `a` delivers before worker `b`. -/
def raceSchedule (a b : ℕ) : List Act :=
  [.main, .main, .main, .worker 0, .worker 1, .worker 0, .worker 1,
   .worker a, .worker b, .worker a, .worker b,
   .main, .main, .main, .main, .main, .main, .worker 0, .worker 1, .main, .main, .main, .main, .main, .main]

theorem lazy_run (owner : Bool) (params : M → P) (eval : P → ℕ → R) (docStep : ℕ → R → M → M × ℕ)
    (batch : M → M × ℕ) (m : M) :
    ∃ s, Pool.run (twoDocs 1 owner params eval docStep batch) (Pool.init _ m) lazySchedule = some s ∧
      s.main = .ret ∧ consumed s.log = [(0, eval (params m) 0),
        (1, eval (params (docStep 0 (eval (params m) 0) m).1) 1)] := by
  simp [lazySchedule, Pool.run, Pool.step, mainStep, workerStep, Pool.init, start, Left.empty, twoDocs, setW,
    wake, List.range_succ]
  rfl

theorem eager_run (owner : Bool) (params : M → P) (eval : P → ℕ → R) (docStep : ℕ → R → M → M × ℕ)
    (batch : M → M × ℕ) (m : M) :
    ∃ s, Pool.run (twoDocs 1 owner params eval docStep batch) (Pool.init _ m) eagerSchedule = some s ∧
      s.main = .ret ∧ consumed s.log = [(0, eval (params m) 0), (1, eval (params m) 1)] := by
  simp [eagerSchedule, Pool.run, Pool.step, mainStep, workerStep, Pool.init, start, Left.empty, twoDocs, setW,
    wake, List.range_succ]
  rfl

theorem race_run (owner : Bool) (params : M → P) (eval : P → ℕ → R) (docStep : ℕ → R → M → M × ℕ)
    (batch : M → M × ℕ) (m : M) :
    (∃ s, Pool.run (twoDocs 2 owner params eval docStep batch) (Pool.init _ m) (raceSchedule 0 1) = some s ∧
      s.main = .ret ∧ consumed s.log = [(0, eval (params m) 0), (1, eval (params m) 1)]) ∧
    ∃ s, Pool.run (twoDocs 2 owner params eval docStep batch) (Pool.init _ m) (raceSchedule 1 0) = some s ∧
      s.main = .ret ∧ consumed s.log = [(1, eval (params m) 1), (0, eval (params m) 0)] := by
  constructor
  · simp [raceSchedule, Pool.run, Pool.step, mainStep, workerStep, Pool.init, start, Left.empty, twoDocs, setW,
      wake, List.range_succ]
    rfl
  · simp [raceSchedule, Pool.run, Pool.step, mainStep, workerStep, Pool.init, start, Left.empty, twoDocs, setW,
      wake, List.range_succ]
    rfl

/-! ### The online step under these schedules -/

/-- The model after some documents have been given to the online step, in terms of its histories. -/
theorem online_seqDocs {cfg : OnlineCfg C} (hmb : 0 < cfg.minibatch) {alpha : Vec K ℝ} {corpus : ℕ → Doc V}
    {eval : Option (Mat K V ℝ × Mat K C ℝ) → ℕ → VP K V} {owner : Bool} {W n : ℕ} {b : Mat K V ℝ}
    {e : Mat K C ℝ} (l : List (ℕ × VP K V)) :
    ∀ {s : OnlineState K V C} {ev : List (Option ℝ)},
    onlineHistory cfg b e (l.map fun d => .doc (alpha, corpus d.1, d.2)) = some (s, ev) →
    seqDocs (onlineTrain cfg alpha corpus eval owner W n) (some ⟨none, 0, some b, some e⟩) l = some s ∧
    ((onlineTrain cfg alpha corpus eval owner W n).batch (some s)).1 = some s := by
  induction l using List.reverseRecOn with
  | nil =>
    intro s ev h
    have h1 := (onlineHistory_is hmb h).step hmb
    simp [onlineHistory, history] at h
    obtain ⟨rfl, rfl⟩ := h
    exact ⟨rfl, by simp [onlineTrain, h1]⟩
  | append_singleton l d ih =>
    intro s ev h
    have h1 := (onlineHistory_is hmb h).step hmb
    rw [List.map_append, List.map_singleton, onlineHistory, history_snoc] at h
    obtain ⟨⟨t, tv⟩, h2, h3⟩ := Option.bind_eq_some_iff.1 h
    obtain ⟨r, h4, h5⟩ := Option.map_eq_some_iff.1 h3
    obtain ⟨q1, _⟩ := ih (s := t) (ev := tv) h2
    obtain ⟨rfl, rfl⟩ := Prod.mk.inj h5
    refine ⟨?_, by simp [onlineTrain, h1]⟩
    rw [seqDocs_snoc, q1]
    simp only [onlineTrain, Option.bind_some]
    simp only at h4
    rw [h4]

/-- One topic with equally likely words and one with words of probability 1/4 and 3/4. -/
noncomputable def raceBeta : Mat 2 2 ℝ := fun k n => if k = 0 then 1 / 2 else if n = 0 then 1 / 4 else 3 / 4

/-- The first document is the first word, the second document is both words. -/
def raceCorpus : ℕ → Doc 2 := fun i => ⟨fun n => if i = 0 ∧ n ≠ 0 then 0 else 1, 0⟩

/-- Minibatches of one document; the other parameters have their default values. -/
noncomputable def raceCfg : OnlineCfg 1 :=
  { classWeights := fun _ => 1, penalty := 1 / 100, minibatch := 1, momentum := 9 / 10, rate := 1 / 100,
    betaWeight := 9 / 10 }

/-- `eval` is the unsupervised E step with one iteration. -/
def OnePass (P : Prims) (p draw : ℝ) (corpus : ℕ → Doc 2)
    (eval : Option (Mat 2 2 ℝ × Mat 2 1 ℝ) → ℕ → VP 2 2) : Prop :=
  ∀ (b : Mat 2 2 ℝ) (e : Mat 2 1 ℝ) (i : ℕ) (s : VP 2 2) (r : Report),
    EStep.unsupervised P ⟨1, 0, p⟩ draw (corpus i).words (⟨fun _ => 1, b, e⟩ : Model 2 2 1) = some (s, r) →
    eval (some (b, e)) i = s

theorem onePass_phi {P : Prims} {p draw : ℝ} {corpus : ℕ → Doc 2}
    {eval : Option (Mat 2 2 ℝ × Mat 2 1 ℝ) → ℕ → VP 2 2} (h : OnePass P p draw corpus eval)
    {b : Mat 2 2 ℝ} (hb : ∀ k n, 0 < b k n) (e : Mat 2 1 ℝ) (i : ℕ) :
    (∀ k n, (eval (some (b, e)) i).phi k n = b k n / (b 0 n + b 1 n)) ∧
    ∀ k, (eval (some (b, e)) i).gamma k =
      1 + ∑ n, ((corpus i).words n : ℝ) * (eval (some (b, e)) i).phi k n := by
  have hv : (⟨fun _ => 1, b, e⟩ : Model 2 2 1).Valid := ⟨fun _ => one_pos, fun k n => (hb k n).le⟩
  obtain ⟨s, r, hs, _⟩ := C35_unsupervised_defined (P := P) (cfg := ⟨1, 0, p⟩) (draw := draw)
    (X := (corpus i).words) hv (by norm_num)
  rw [h b e i s r hs]
  obtain ⟨f, j, h0, hstep, rfl, hj, hj1, hj2⟩ := C38_unsupervised hv (by norm_num) hs
  have hj' : j = 1 := by
    simp only at hj
    rcases Nat.lt_or_ge j 1 with hlt | hge
    · have := hj1 hlt
      have h00 : j = 0 := by omega
      rw [h00] at this
      exfalso
      revert this
      apply not_lt.2
      simp only [change]
      positivity
    · omega
  subst hj'
  obtain ⟨psi, hpsi, hprop, hc⟩ := hstep 0 (by norm_num)
  rw [h0] at hpsi
  have hpe : psi 0 = psi 1 := by
    have e0 := hpsi 0
    have e1 := hpsi 1
    simp only at e0 e1
    exact Option.some.inj (e0.symm.trans e1)
  refine ⟨fun k n => ?_, hc⟩
  have := (hprop n).1 k
  have hpos := P.exp_pos (psi 1)
  have hsum : 0 < b 0 n + b 1 n := add_pos (hb 0 n) (hb 1 n)
  simp only [Fin.sum_univ_two, hpe] at this
  rw [eq_div_iff hsum.ne']
  have hk : psi k = psi 1 := by fin_cases k <;> simp [hpe]
  rw [hk] at this
  have h2 : (f (0 + 1)).phi k n * (b 0 n + b 1 n) * P.exp (psi 1) = b k n * P.exp (psi 1) := by
    rw [← this]; ring
  exact mul_right_cancel₀ hpos.ne' h2

/-- The topics after the online step was given two documents. -/
theorem race_beta {d d' : DocArg 2 2} {eta : Mat 2 1 ℝ} (hd : d.2.1.cls = 0) (hd' : d'.2.1.cls = 0)
    (hm : ∀ k, topicMass [d.2] k ≠ 0) (hm' : ∀ k, topicMass [d.2, d'.2] k ≠ 0) :
    ∃ s s' ev ev', onlineHistory raceCfg raceBeta eta [.doc d] = some (s, ev) ∧
      onlineHistory raceCfg raceBeta eta [.doc d, .doc d'] = some (s', ev') ∧
      (s.beta = some fun k n => 9 / 10 * raceBeta k n +
        1 / 10 * (expectedCounts [d.2] k n / topicMass [d.2] k)) ∧
      s'.beta = some fun k n => 9 / 10 * (9 / 10 * raceBeta k n +
        1 / 10 * (expectedCounts [d.2] k n / topicMass [d.2] k)) +
        1 / 10 * (expectedCounts [d.2, d'.2] k n / topicMass [d.2, d'.2] k) := by
  have hmb : 0 < raceCfg.minibatch := by simp [raceCfg]
  obtain ⟨s, ev, hs⟩ := C52_defined hmb raceBeta eta ([] ++ [.doc d]) (by simp [given, hd])
  obtain ⟨s', ev', hs'⟩ := C52_defined hmb raceBeta eta ([.doc d] ++ [.doc d']) (by simp [given, hd, hd'])
  have hs0 : onlineHistory raceCfg raceBeta eta [] = some (⟨none, 0, some raceBeta, some eta⟩, []) := rfl
  have e1 := C53_all_documents hmb hs0 d (by simp [raceCfg]) rfl hs (by simpa [given] using hm)
  have e2 := C53_all_documents hmb hs d' (by simp [raceCfg]) e1 hs' (by simpa [given] using hm')
  refine ⟨s, s', ev, ev', hs, hs', ?_, ?_⟩
  · rw [e1]
    congr 1
    funext k n
    simp [given, raceCfg]
    norm_num
  · rw [e2]
    congr 1
    funext k n
    simp [given, raceCfg]
    norm_num

theorem race_model {eval : Option (Mat 2 2 ℝ × Mat 2 1 ℝ) → ℕ → VP 2 2} {eta : Mat 2 1 ℝ} {owner : Bool} {W : ℕ}
    {as : List Act} {s : St (Option (OnlineState 2 2 1)) (VP 2 2) W} {i i' : ℕ} {r r' : VP 2 2}
    (hrun : Pool.run (onlineTrain raceCfg (fun _ => 1) raceCorpus eval owner W 2)
      (Pool.init _ (some ⟨none, 0, some raceBeta, some eta⟩)) as = some s)
    (hr : s.main = .ret) (hc : consumed s.log = [(i, r), (i', r')]) {t : OnlineState 2 2 1}
    {ev : List (Option ℝ)} (ht : onlineHistory raceCfg raceBeta eta
      [.doc (fun _ => 1, raceCorpus i, r), .doc (fun _ => 1, raceCorpus i', r')] = some (t, ev)) :
    s.model = some t := by
  have hR : Reachable (onlineTrain raceCfg (fun _ => 1) raceCorpus eval owner W 2)
      (some ⟨none, 0, some raceBeta, some eta⟩) s := ⟨as, hrun⟩
  have hm := inv_model (c := onlineTrain raceCfg (fun _ => 1) raceCorpus eval owner W 2) s hR
  have hk : (onlineTrain raceCfg (fun _ => 1) raceCorpus eval owner W 2).kind = .partialFit := rfl
  simp only [hr, ModelP, hk, hc] at hm
  obtain ⟨h1, h2⟩ := online_seqDocs (by simp [raceCfg]) (eval := eval) (owner := owner) (W := W) (n := 2)
    [(i, r), (i', r')] ht
  rw [hm, h1, h2]

/-- **C09 is false, even with one worker**: there are two schedules of `partial_fit` with one worker, on the
same two documents and the same parameters, after which the topics differ.  The E step of the second document
uses the parameters before or after the first minibatch. -/
theorem C09_one_worker_depends (P : Prims) (p draw : ℝ) (owner : Bool) (eta : Mat 2 1 ℝ)
    {eval : Option (Mat 2 2 ℝ × Mat 2 1 ℝ) → ℕ → VP 2 2} (hE : OnePass P p draw raceCorpus eval) :
    ∃ s s' : St (Option (OnlineState 2 2 1)) (VP 2 2) 1,
      Reachable (onlineTrain raceCfg (fun _ => 1) raceCorpus eval owner 1 2)
        (some ⟨none, 0, some raceBeta, some eta⟩) s ∧ s.main = .ret ∧
      Reachable (onlineTrain raceCfg (fun _ => 1) raceCorpus eval owner 1 2)
        (some ⟨none, 0, some raceBeta, some eta⟩) s' ∧ s'.main = .ret ∧
      ∃ t t' b b', s.model = some t ∧ s'.model = some t' ∧ t.beta = some b ∧ t'.beta = some b' ∧ b ≠ b' := by
  have hb0 : ∀ k n, 0 < raceBeta k n := by
    intro k n; simp only [raceBeta]; split_ifs <;> norm_num
  obtain ⟨h0, g0⟩ := onePass_phi hE hb0 eta 0
  obtain ⟨h1, _⟩ := onePass_phi hE hb0 eta 1
  obtain ⟨s, hs, hr, hc⟩ := lazy_run owner onlineParams eval
    (onlineTrain raceCfg (fun _ => 1) raceCorpus eval owner 1 2).docStep
    (onlineTrain raceCfg (fun _ => 1) raceCorpus eval owner 1 2).batch (some ⟨none, 0, some raceBeta, some eta⟩)
  obtain ⟨s', hs', hr', hc'⟩ := eager_run owner onlineParams eval
    (onlineTrain raceCfg (fun _ => 1) raceCorpus eval owner 1 2).docStep
    (onlineTrain raceCfg (fun _ => 1) raceCorpus eval owner 1 2).batch (some ⟨none, 0, some raceBeta, some eta⟩)
  have hp : onlineParams (some (⟨none, 0, some raceBeta, some eta⟩ : OnlineState 2 2 1)) =
    some (raceBeta, eta) := rfl
  rw [hp] at hc hc'
  set r0 := eval (some (raceBeta, eta)) 0 with hr0
  set r1 := eval (some (raceBeta, eta)) 1 with hr1
  -- the results for the initial parameters
  have v0 : ∀ k n, r0.phi k n = raceBeta k n / (raceBeta 0 n + raceBeta 1 n) := h0
  have v1 : ∀ k n, r1.phi k n = raceBeta k n / (raceBeta 0 n + raceBeta 1 n) := h1
  have m0 : ∀ k, topicMass [(raceCorpus 0, r0)] k ≠ 0 := by
    intro k
    fin_cases k <;> norm_num [topicMass, expectedCounts, Fin.sum_univ_two, raceCorpus, v0, raceBeta]
  have m01 : ∀ k, topicMass [(raceCorpus 0, r0), (raceCorpus 1, r1)] k ≠ 0 := by
    intro k
    fin_cases k <;> norm_num [topicMass, expectedCounts, Fin.sum_univ_two, raceCorpus, v0, v1, raceBeta]
  obtain ⟨t1, t', ev1, ev', ht1, ht', b1, b'⟩ := race_beta (eta := eta) (d := (fun _ => 1, raceCorpus 0, r0))
    (d' := (fun _ => 1, raceCorpus 1, r1)) rfl rfl m0 m01
  -- the parameters after the first document
  obtain ⟨e1, vel, he1, _⟩ := C52_finite (by simp [raceCfg]) ht1 (by simp [given, raceCorpus]) (by
    intro d hd
    simp only [given, List.filterMap_cons, List.filterMap_nil, List.mem_singleton] at hd
    subst hd
    have q0 := g0 0
    have q1 := g0 1
    norm_num [Fin.sum_univ_two, q0, q1, raceCorpus, v0, raceBeta])
  obtain ⟨beta1, hbeta1⟩ : ∃ be, t1.beta = some be := ⟨_, b1⟩
  have hd1 : ((onlineTrain raceCfg (fun _ => 1) raceCorpus eval owner 1 2).docStep 0 r0
      (some ⟨none, 0, some raceBeta, some eta⟩)).1 = some t1 := by
    have := (online_seqDocs (by simp [raceCfg]) (alpha := fun _ => 1) (corpus := raceCorpus) (eval := eval)
      (owner := owner) (W := 1) (n := 2) [(0, r0)] ht1).1
    simpa [seqDocs] using this
  have hp1 : onlineParams (some t1) = some (beta1, e1) := by simp [onlineParams, he1, hbeta1]
  rw [hd1, hp1] at hc
  have hbeta1' : ∀ k n, beta1 k n = 9 / 10 * raceBeta k n +
      1 / 10 * (expectedCounts [(raceCorpus 0, r0)] k n / topicMass [(raceCorpus 0, r0)] k) := by
    intro k n
    rw [hbeta1] at b1
    exact congrFun (congrFun (Option.some.inj b1) k) n
  have val1 : beta1 0 0 = 11 / 20 ∧ beta1 0 1 = 9 / 20 ∧ beta1 1 0 = 13 / 40 ∧ beta1 1 1 = 27 / 40 := by
    refine ⟨?_, ?_, ?_, ?_⟩ <;> rw [hbeta1'] <;>
      norm_num [topicMass, expectedCounts, Fin.sum_univ_two, raceCorpus, v0, raceBeta]
  obtain ⟨w1, w2, w3, w4⟩ := val1
  have hb1 : ∀ k n, 0 < beta1 k n := by
    intro k n
    fin_cases k <;> fin_cases n <;> simp [w1, w2, w3, w4]
  obtain ⟨h2, _⟩ := onePass_phi hE hb1 e1 1
  set r2 := eval (some (beta1, e1)) 1 with hr2
  have v2 : ∀ k n, r2.phi k n = beta1 k n / (beta1 0 n + beta1 1 n) := h2
  have m02 : ∀ k, topicMass [(raceCorpus 0, r0), (raceCorpus 1, r2)] k ≠ 0 := by
    intro k
    fin_cases k <;> norm_num [topicMass, expectedCounts, Fin.sum_univ_two, raceCorpus, v0, v2, raceBeta, w1, w2,
      w3, w4]
  obtain ⟨_, t, _, ev, _, ht, _, b⟩ := race_beta (eta := eta) (d := (fun _ => 1, raceCorpus 0, r0))
    (d' := (fun _ => 1, raceCorpus 1, r2)) rfl rfl m0 m02
  refine ⟨s, s', ⟨_, hs⟩, hr, ⟨_, hs'⟩, hr', t, t', _, _, race_model hs hr hc ht, race_model hs' hr' hc' ht',
    b, b', ?_⟩
  intro h
  have := congrFun (congrFun h 0) 0
  norm_num [topicMass, expectedCounts, Fin.sum_univ_two, raceCorpus, v0, v1, v2, raceBeta, w1, w2, w3, w4] at this

/-- **C09 is false with two workers** even if no result is computed from stale parameters: here both documents
are evaluated for the initial parameters under both schedules, and only the order in which the results arrive
differs. -/
theorem C09_order_depends (P : Prims) (p draw : ℝ) (owner : Bool) (eta : Mat 2 1 ℝ)
    {eval : Option (Mat 2 2 ℝ × Mat 2 1 ℝ) → ℕ → VP 2 2} (hE : OnePass P p draw raceCorpus eval) :
    ∃ s s' : St (Option (OnlineState 2 2 1)) (VP 2 2) 2,
      Reachable (onlineTrain raceCfg (fun _ => 1) raceCorpus eval owner 2 2)
        (some ⟨none, 0, some raceBeta, some eta⟩) s ∧ s.main = .ret ∧
      Reachable (onlineTrain raceCfg (fun _ => 1) raceCorpus eval owner 2 2)
        (some ⟨none, 0, some raceBeta, some eta⟩) s' ∧ s'.main = .ret ∧
      (consumed s.log).Perm (consumed s'.log) ∧
      ∃ t t' b b', s.model = some t ∧ s'.model = some t' ∧ t.beta = some b ∧ t'.beta = some b' ∧ b ≠ b' := by
  have hb0 : ∀ k n, 0 < raceBeta k n := by
    intro k n; simp only [raceBeta]; split_ifs <;> norm_num
  obtain ⟨h0, _⟩ := onePass_phi hE hb0 eta 0
  obtain ⟨h1, _⟩ := onePass_phi hE hb0 eta 1
  obtain ⟨⟨s, hs, hr, hc⟩, s', hs', hr', hc'⟩ := race_run owner onlineParams eval
    (onlineTrain raceCfg (fun _ => 1) raceCorpus eval owner 2 2).docStep
    (onlineTrain raceCfg (fun _ => 1) raceCorpus eval owner 2 2).batch (some ⟨none, 0, some raceBeta, some eta⟩)
  have hp : onlineParams (some (⟨none, 0, some raceBeta, some eta⟩ : OnlineState 2 2 1)) =
    some (raceBeta, eta) := rfl
  rw [hp] at hc hc'
  set r0 := eval (some (raceBeta, eta)) 0 with hr0
  set r1 := eval (some (raceBeta, eta)) 1 with hr1
  have v0 : ∀ k n, r0.phi k n = raceBeta k n / (raceBeta 0 n + raceBeta 1 n) := h0
  have v1 : ∀ k n, r1.phi k n = raceBeta k n / (raceBeta 0 n + raceBeta 1 n) := h1
  have m0 : ∀ k, topicMass [(raceCorpus 0, r0)] k ≠ 0 := by
    intro k
    fin_cases k <;> norm_num [topicMass, expectedCounts, Fin.sum_univ_two, raceCorpus, v0, raceBeta]
  have m1 : ∀ k, topicMass [(raceCorpus 1, r1)] k ≠ 0 := by
    intro k
    fin_cases k <;> norm_num [topicMass, expectedCounts, Fin.sum_univ_two, raceCorpus, v1, raceBeta]
  have m01 : ∀ k, topicMass [(raceCorpus 0, r0), (raceCorpus 1, r1)] k ≠ 0 := by
    intro k
    fin_cases k <;> norm_num [topicMass, expectedCounts, Fin.sum_univ_two, raceCorpus, v0, v1, raceBeta]
  have m10 : ∀ k, topicMass [(raceCorpus 1, r1), (raceCorpus 0, r0)] k ≠ 0 := by
    intro k
    fin_cases k <;> norm_num [topicMass, expectedCounts, Fin.sum_univ_two, raceCorpus, v0, v1, raceBeta]
  obtain ⟨_, t, _, ev, _, ht, _, b⟩ := race_beta (eta := eta) (d := (fun _ => 1, raceCorpus 0, r0))
    (d' := (fun _ => 1, raceCorpus 1, r1)) rfl rfl m0 m01
  obtain ⟨_, t', _, ev', _, ht', _, b'⟩ := race_beta (eta := eta) (d := (fun _ => 1, raceCorpus 1, r1))
    (d' := (fun _ => 1, raceCorpus 0, r0)) rfl rfl m1 m10
  refine ⟨s, s', ⟨_, hs⟩, hr, ⟨_, hs'⟩, hr', ?_, t, t', _, _, race_model hs hr hc ht,
    race_model hs' hr' hc' ht', b, b', ?_⟩
  · rw [hc, hc']
    exact List.Perm.swap _ _ _
  · intro h
    have := congrFun (congrFun h 0) 0
    norm_num [topicMass, expectedCounts, Fin.sum_univ_two, raceCorpus, v0, v1, raceBeta] at this

open Classical in
/-- There is such an E step. -/
example (P : Prims) (p draw : ℝ) : ∃ eval, OnePass P p draw raceCorpus eval := by
  refine ⟨fun q i => match q with
    | none => ⟨fun _ _ => 0, fun _ => 0⟩
    | some q => match EStep.unsupervised P ⟨1, 0, p⟩ draw (raceCorpus i).words
        (⟨fun _ => 1, q.1, q.2⟩ : Model 2 2 1) with
      | none => ⟨fun _ _ => 0, fun _ => 0⟩
      | some r => r.1, ?_⟩
  intro b e i s r h
  simp [h]

/-! ### The hypotheses of `C09_one_at_a_time_partial` -/

/-- The condition on one action. -/
def oneCheck1 (c : Pool.Cfg M P R) (s : St M R c.W) (a : Act) : Bool :=
  match a with
  | .worker j =>
    if h : j < c.W then
      match s.ws ⟨j, h⟩ with
      | .work i => (List.range i).all fun x => ((consumed s.log).map Prod.fst).contains x
      | _ => true
    else true
  | _ => true

/-- A schedule can be checked step by step. -/
def oneCheck (c : Pool.Cfg M P R) (s : St M R c.W) : List Act → Bool
  | [] => true
  | a :: as => oneCheck1 c s a &&
    match Pool.step c s a with
    | none => true
    | some s' => oneCheck c s' as

theorem oneCheck_sound {c : Pool.Cfg M P R} (as : List Act) : ∀ (s0 : St M R c.W), oneCheck c s0 as = true →
    ∀ (pre post : List Act) (w : Fin c.W) (i : ℕ) (s : St M R c.W), as = pre ++ .worker w :: post →
    Pool.run c s0 pre = some s → s.ws w = .work i → ∀ i' < i, i' ∈ (consumed s.log).map Prod.fst := by
  induction as with
  | nil => intro s0 _ pre post w i s h; simp at h
  | cons a as ih =>
    intro s0 hc pre post w i s h hrun hw
    rw [oneCheck, Bool.and_eq_true] at hc
    cases pre with
    | nil =>
      cases hrun
      simp only [List.nil_append, List.cons.injEq] at h
      obtain ⟨rfl, _⟩ := h
      have := hc.1
      simp only [oneCheck1, w.isLt, dif_pos, Fin.eta, hw, List.all_eq_true, List.mem_range,
        List.contains_iff_mem] at this
      exact this
    | cons b pre =>
      simp only [List.cons_append, List.cons.injEq] at h
      obtain ⟨rfl, h⟩ := h
      simp only [Pool.run] at hrun
      split at hrun
      · cases hrun
      · rename_i s1 h1
        have := hc.2
        rw [h1] at this
        exact ih s1 this pre post w i s h hrun hw

/-- The schedule `lazySchedule` of a step that adds to the parameter what it is given. -/
example : ∃ s, OneAtATime (twoDocs 1 true id (fun p i => p + i) (fun _ r m => (m + r, 0)) fun m => (m, 0)) 5
      lazySchedule ∧
    Pool.run (twoDocs 1 true id (fun p i => p + i) (fun _ r m => (m + r, 0)) fun m => (m, 0)) (Pool.init _ 5)
      lazySchedule = some s ∧ s.main = .ret ∧ s.model = 21 := by
  refine ⟨_, ?_, rfl, rfl, rfl⟩
  exact fun pre post w i s => oneCheck_sound lazySchedule _ (by decide) pre post w i s

end Verif.Train
