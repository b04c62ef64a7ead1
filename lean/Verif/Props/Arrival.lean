import Mathlib.Algebra.Order.BigOperators.Group.Finset
import Verif.Props.Fit

/-! Property C95: in which orders the results can arrive. -/
namespace Verif.Pool

open Finset

variable {M P R : Type}

/-- No document is more than `W - 1` positions early: the one at position `p` is among the first `p + W`. -/
def Lag (W : ℕ) (l : List ℕ) : Prop := ∀ p i, l[p]? = some i → i < p + W

/-! ### Only these orders -/

/-- The number of documents in the hands of a worker. -/
def busy : WPc R → ℕ
  | .work _ => 1
  | .push _ _ => 1
  | _ => 0

/-- The document the calling thread has extracted but not handed over. -/
def extracted (kd : Kind) : MPc R → List ℕ
  | .got _ i _ => [i]
  | .mid _ i _ => match kd with
    | .partialFit => [i]
    | .transform => []
  | _ => []

/-- The documents in the order in which their results were pushed. -/
def arrived (c : Cfg M P R) (s : St M R c.W) : List ℕ :=
  (consumed s.log).map Prod.fst ++ extracted c.kind s.main ++ s.qout.map Prod.snd

/-- The worker holds document `i`. -/
def Holds (i : ℕ) : WPc R → Prop
  | .work j => i = j
  | .push j _ => i = j
  | _ => False

structure LagInv (c : Cfg M P R) (s : St M R c.W) : Prop where
  queue : ∃ f, s.qin = (List.range c.n).drop f ∧ f = (arrived c s).length + ∑ w, busy (s.ws w) ∧
    ∀ w i, Holds i (s.ws w) → i < f
  lag : Lag c.W (arrived c s)

theorem busy_le (w : WPc R) : busy w ≤ 1 := by cases w <;> simp [busy]

theorem sum_busy_le {W : ℕ} (ws : Fin W → WPc R) : ∑ w, busy (ws w) ≤ W := by
  calc ∑ w, busy (ws w) ≤ ∑ _w : Fin W, 1 := sum_le_sum fun w _ => busy_le _
    _ = W := by simp

theorem extracted_wake (kd : Kind) (pc : MPc R) : extracted kd (wake pc) = extracted kd pc := by
  cases pc <;> rfl

theorem Lag.snoc {W : ℕ} {l : List ℕ} (h : Lag W l) {i : ℕ} (hi : i < l.length + W) : Lag W (l ++ [i]) := by
  intro p j hp
  rcases Nat.lt_or_ge p l.length with h1 | h1
  · rw [List.getElem?_append_left h1] at hp
    exact h p j hp
  · rw [List.getElem?_append_right h1] at hp
    have h2 : p - l.length = 0 := by
      by_contra h3
      rw [List.getElem?_eq_none (by simp; omega)] at hp
      cases hp
    rw [h2] at hp
    simp at hp
    omega

/-- A step that moves neither documents nor workers. -/
theorem LagInv.same {c : Cfg M P R} {s s' : St M R c.W} (h : LagInv c s) (ha : arrived c s' = arrived c s)
    (hq : s'.qin = s.qin) (hw : s'.ws = s.ws) : LagInv c s' := by
  obtain ⟨⟨f, h1, h2, h3⟩, h4⟩ := h
  exact ⟨⟨f, by rw [hq, h1], by rw [ha, hw, h2], by rw [hw]; exact h3⟩, by rw [ha]; exact h4⟩

/-- A step of one worker that moves no documents. -/
theorem LagInv.worker {c : Cfg M P R} {s s' : St M R c.W} (h : LagInv c s) (ha : arrived c s' = arrived c s)
    (hq : s'.qin = s.qin) {j : Fin c.W} {v : WPc R} (hw : s'.ws = setW s.ws j v) (hb : busy v = busy (s.ws j))
    (hh : ∀ i, Holds i v → Holds i (s.ws j)) : LagInv c s' := by
  obtain ⟨⟨f, h1, h2, h3⟩, h4⟩ := h
  refine ⟨⟨f, by rw [hq, h1], ?_, ?_⟩, by rw [ha]; exact h4⟩
  · have := sum_setW busy s.ws j v
    rw [ha, hw, h2]
    omega
  · intro w i hi
    rw [hw] at hi
    by_cases hwj : w = j
    · subst hwj
      rw [setW_same] at hi
      exact h3 w i (hh i hi)
    · rw [setW_ne _ _ hwj] at hi
      exact h3 w i hi

theorem lag_inv {c : Cfg M P R} {m : M} : ∀ s, Reachable c m s → LagInv c s := by
  apply reachable_induct
  · exact ⟨⟨0, by simp [init, start, Left.empty],
      by simp [init, start, Left.empty, arrived, extracted, busy],
      by simp [init, start, Holds]⟩, by simp [init, start, Left.empty, arrived, extracted, Lag]⟩
  · intro s a s' hR hI ht
    cases ht with
    | fetchDone j h hq => exact hI.worker rfl rfl rfl (by simp [h, busy]) (by simp [Holds])
    | fetchJob j i q h hq =>
      obtain ⟨⟨f, h1, h2, h3⟩, h4⟩ := hI
      rw [hq] at h1
      have hf : f < c.n := by
        by_contra hf
        rw [List.drop_of_length_le (by simp; omega)] at h1
        cases h1
      rw [List.drop_eq_getElem_cons (by simpa using hf)] at h1
      simp only [List.getElem_range, List.cons.injEq] at h1
      have hs := sum_setW busy s.ws j (.work i)
      have e0 : busy (.fetch : WPc R) = 0 := rfl
      have e1 : busy (.work i : WPc R) = 1 := rfl
      rw [h, e0, e1] at hs
      refine ⟨⟨f + 1, h1.2, ?_, ?_⟩, h4⟩
      · show f + 1 = (arrived c s).length + _
        simp only
        omega
      · intro w i' hi
        by_cases hwj : w = j
        · subst hwj
          simp only [setW_same, Holds] at hi
          omega
        · simp only [setW_ne _ _ hwj] at hi
          have := h3 w i' hi
          omega
    | work j i h => exact hI.worker rfl rfl rfl (by simp [h, busy]) (by simp [h, Holds])
    | push j i r h =>
      obtain ⟨⟨f, h1, h2, h3⟩, h4⟩ := hI
      have ha : arrived c { s with qout := s.qout ++ [(r, i)], ws := setW s.ws j .notify } = arrived c s ++ [i] := by
        simp [arrived]
      have hs := sum_setW busy s.ws j .notify
      have e0 : busy (.notify : WPc R) = 0 := rfl
      have e1 : busy (.push i r : WPc R) = 1 := rfl
      rw [h, e0, e1] at hs
      have hb := sum_busy_le s.ws
      have hi := h3 j i (by simp [h, Holds])
      refine ⟨⟨f, h1, ?_, ?_⟩, ?_⟩
      · rw [ha, List.length_append, List.length_singleton]
        simp only
        omega
      · intro w i' hi'
        by_cases hwj : w = j
        · subst hwj
          simp [Holds] at hi'
        · simp only [setW_ne _ _ hwj] at hi'
          exact h3 w i' hi'
      · rw [ha]
        exact h4.snoc (by omega)
    | notify j h =>
      exact hI.worker (by simp [arrived, extracted_wake]) rfl rfl (by simp [h, busy]) (by simp [Holds])
    | spawn j hj h =>
      have h3 := inv_born s hR
      simp only [h, BornP] at h3
      have h4 := (h3.2 ⟨j, hj⟩).1 (Nat.le_refl _)
      exact hI.worker (by simp [arrived, h, extracted]) rfl rfl (by simp [h4, busy]) (by simp [Holds])
    | extract k i r q hk h hq => exact hI.same (by simp [arrived, h, hq, extracted]) rfl rfl
    | pfProcess k i r hk h => exact hI.same (by simp [arrived, h, hk, extracted]) rfl rfl
    | trConsume k i r hk h => exact hI.same (by simp [arrived, h, hk, extracted]) (by simp) (by simp)
    | pfConsume k i r hk h => exact hI.same (by simp [arrived, h, hk, extracted]) (by simp) (by simp)
    | trProcess k i r hk h => exact hI.same (by simp [arrived, h, hk, extracted]) rfl rfl
    | _ => exact hI.same (by simp_all [arrived, extracted]) (by simp) (by simp)

/-- **C95**: in `partial_fit` and `transform`, with any schedule, no result overtakes `W` others: the document
handed over at position `p` is among the first `p + W` of the corpus. -/
theorem C95_bounded {c : Cfg M P R} {m : M} {s : St M R c.W} (h : Reachable c m s) :
    Lag c.W ((consumed s.log).map Prod.fst) := by
  have h1 := (lag_inv s h).lag
  intro p i hp
  apply h1 p i
  unfold arrived
  have : p < ((consumed s.log).map Prod.fst).length := by
    by_contra h2
    rw [List.getElem?_eq_none (by omega)] at hp
    cases hp
  rw [List.append_assoc, List.getElem?_append_left this]
  exact hp

/-! ### All of these orders -/

/-- The calling thread has handed over the first `p` documents of `l` and every other document that was fetched
is in the hands of a worker. -/
structure Ready (c : Cfg M P R) (m : M) (l : List ℕ) (p : ℕ) (s : St M R c.W) : Prop where
  reach : Reachable c m s
  main : s.main = .loop p
  qout : s.qout = []
  qin : s.qin = (List.range c.n).drop (p + c.W)
  log : (consumed s.log).map Prod.fst = l.take p
  held : ∀ i, i < c.n → i < p + c.W → i ∉ l.take p → ∃ w, s.ws w = .work i
  rest : ∀ w, s.ws w = .done ∨ ∃ i, s.ws w = .work i ∧ i < c.n ∧ i < p + c.W ∧ i ∉ l.take p
  inj : ∀ v w i, s.ws v = .work i → s.ws w = .work i → v = w

theorem spawn_all (c : Cfg M P R) (m : M) : ∀ j ≤ c.W, ∃ s, Reachable c m s ∧ s.main = .spawn j ∧
    s.qin = List.range c.n ∧ s.qout = [] ∧ s.log = [] ∧ ∀ w : Fin c.W, w.val < j → s.ws w = .fetch := by
  intro j
  induction j with
  | zero => exact fun _ => ⟨_, Reachable.init c m, rfl, by simp [init, start, Left.empty], rfl, rfl, by simp⟩
  | succ j ih =>
    intro hj
    obtain ⟨s, h1, h2, h3, h4, h5, h6⟩ := ih (by omega)
    have hs : step c s .main = some { s with ws := setW s.ws ⟨j, hj⟩ .fetch, main := .spawn (j + 1) } := by
      simp only [step, mainStep, h2]
      rw [dif_pos (show j < c.W from hj)]
    refine ⟨_, h1.step hs, rfl, h3, h4, h5, ?_⟩
    intro w hw
    by_cases hwj : w = ⟨j, hj⟩
    · subst hwj
      simp
    · simp only [setW_ne _ _ hwj]
      apply h6
      have : w.val ≠ j := fun h => hwj (Fin.ext h)
      omega

theorem fetch_all (c : Cfg M P R) (m : M) : ∀ j ≤ c.W, ∃ s, Reachable c m s ∧ s.main = .loop 0 ∧
    s.qin = (List.range c.n).drop j ∧ s.qout = [] ∧ s.log = [] ∧
    ∀ w : Fin c.W, s.ws w = if w.val < j then (if w.val < c.n then .work w.val else .done) else .fetch := by
  intro j
  induction j with
  | zero =>
    intro _
    obtain ⟨s, h1, h2, h3, h4, h5, h6⟩ := spawn_all c m c.W le_rfl
    have hs : step c s .main = some { s with main := .loop 0 } := by
      simp [step, mainStep, h2]
    exact ⟨_, h1.step hs, rfl, by simpa using h3, h4, h5, fun w => by simpa using h6 w w.isLt⟩
  | succ j ih =>
    intro hj
    obtain ⟨s, h1, h2, h3, h4, h5, h6⟩ := ih (by omega)
    have hw : s.ws ⟨j, hj⟩ = .fetch := by simpa using h6 ⟨j, hj⟩
    have hfin : ∀ (v : WPc R), v = (if j < c.n then .work j else .done) → ∀ w : Fin c.W,
        setW s.ws ⟨j, hj⟩ v w = if w.val < j + 1 then (if w.val < c.n then .work w.val else .done) else .fetch := by
      intro v hv w
      by_cases hwj : w = ⟨j, hj⟩
      · subst hwj
        simp [hv]
      · have : w.val ≠ j := fun h => hwj (Fin.ext h)
        rw [setW_ne _ _ hwj, h6]
        have e : (w.val < j + 1) = (w.val < j) := by
          apply propext
          omega
        simp only [e]
    by_cases hn : j < c.n
    · have hq : s.qin = j :: (List.range c.n).drop (j + 1) := by
        rw [h3, List.drop_eq_getElem_cons (by simpa using hn)]
        simp
      have hs : step c s (.worker j) = some
          { s with qin := (List.range c.n).drop (j + 1), ws := setW s.ws ⟨j, hj⟩ (.work j) } := by
        simp only [step, workerStep]
        rw [dif_pos (show j < c.W from hj), hw, hq]
      exact ⟨_, h1.step hs, h2, rfl, h4, h5, hfin _ (by simp [hn])⟩
    · have hq : s.qin = [] := by
        rw [h3, List.drop_of_length_le (by simp; omega)]
      have hs : step c s (.worker j) = some { s with ws := setW s.ws ⟨j, hj⟩ .done } := by
        simp only [step, workerStep]
        rw [dif_pos (show j < c.W from hj), hw, hq]
      refine ⟨_, h1.step hs, h2, ?_, h4, h5, hfin _ (by simp [hn])⟩
      show s.qin = _
      rw [hq, List.drop_of_length_le (by simp; omega)]

theorem ready_zero (c : Cfg M P R) (m : M) (l : List ℕ) : ∃ s, Ready c m l 0 s := by
  obtain ⟨s, h1, h2, h3, h4, h5, h6⟩ := fetch_all c m c.W le_rfl
  refine ⟨s, h1, h2, h4, by simpa using h3, by simp [h5], ?_, ?_, ?_⟩
  · intro i hi hi' _
    exact ⟨⟨i, by omega⟩, by simp [h6, hi]; omega⟩
  · intro w
    rw [h6, if_pos w.isLt]
    split
    · rename_i hw
      exact .inr ⟨_, rfl, hw, by omega, by simp⟩
    · exact .inl rfl
  · have key : ∀ (w : Fin c.W) i, s.ws w = .work i → w.val = i := by
      intro w i hi
      rw [h6, if_pos w.isLt] at hi
      split at hi
      · cases hi
        rfl
      · cases hi
    intro v w i hv hw
    exact Fin.ext ((key v i hv).trans (key w i hw).symm)

theorem ready_succ {c : Cfg M P R} {m : M} {l : List ℕ} (hl : l.Perm (List.range c.n)) (hlag : Lag c.W l) {p : ℕ}
    (hp : p < c.n) {s : St M R c.W} (h : Ready c m l p s) : ∃ s', Ready c m l (p + 1) s' := by
  have hlen : l.length = c.n := by simpa using hl.length_eq
  have hnd : l.Nodup := hl.nodup_iff.2 List.nodup_range
  obtain ⟨i, hi⟩ : ∃ i, l[p]? = some i := ⟨l[p]'(by omega), List.getElem?_eq_getElem _⟩
  have hin : i < c.n := by
    have := hl.mem_iff.1 (List.mem_of_getElem? hi)
    simpa using this
  have hip := hlag p i hi
  have htake : l.take (p + 1) = l.take p ++ [i] := by
    rw [List.take_add_one, hi]
    rfl
  have hnot : i ∉ l.take p := by
    have : (l.take (p + 1)).Nodup := hnd.sublist (List.take_sublist _ _)
    rw [htake, List.nodup_append] at this
    intro hmem
    exact this.2.2 i hmem i (by simp) rfl
  obtain ⟨w, hw⟩ := h.held i hin hip hnot
  obtain ⟨r, hr⟩ : ∃ r, r = c.eval (c.params s.model) i := ⟨_, rfl⟩
  -- the E step, the push, the notification
  obtain ⟨s3, r3, m3, q3, o3, l3, w3⟩ : ∃ s3, Reachable c m s3 ∧ s3.main = .loop p ∧ s3.qin = s.qin ∧
      s3.qout = [(r, i)] ∧ s3.log = s.log ∧ s3.ws = setW s.ws w .fetch := by
    have e1 : step c s (.worker w) = some
        { s with ws := setW s.ws w (.push i r), evq := s.evq ++ [.exp i] } := by
      simp only [step, workerStep, w.isLt, dif_pos, Fin.eta, hw, hr]
    have r1 := h.reach.step e1
    generalize hs1 : ({ s with ws := setW s.ws w (.push i r), evq := s.evq ++ [.exp i] } : St M R c.W) = s1 at r1
    have w1 : s1.ws w = .push i r := by rw [← hs1]; simp
    have e2 : step c s1 (.worker w) = some
        { s1 with qout := s1.qout ++ [(r, i)], ws := setW s1.ws w .notify } := by
      simp only [step, workerStep, w.isLt, dif_pos, Fin.eta, w1]
    have r2 := r1.step e2
    generalize hs2 : ({ s1 with qout := s1.qout ++ [(r, i)], ws := setW s1.ws w .notify } : St M R c.W) = s2 at r2
    have w2 : s2.ws w = .notify := by rw [← hs2]; simp
    have e3 : step c s2 (.worker w) = some { s2 with ws := setW s2.ws w .fetch, main := wake s2.main } := by
      simp only [step, workerStep, w.isLt, dif_pos, Fin.eta, w2]
    refine ⟨_, r2.step e3, ?_, ?_, ?_, ?_, ?_⟩
    · simp only [← hs2, ← hs1, h.main, wake]
    · simp only [← hs2, ← hs1]
    · simp only [← hs2, ← hs1, h.qout, List.nil_append]
    · simp only [← hs2, ← hs1]
    · funext x
      simp only [← hs2, ← hs1, setW]
      split <;> rfl
  -- the calling thread hands the document over
  obtain ⟨s6, r6, m6, q6, o6, l6, w6⟩ : ∃ s6, Reachable c m s6 ∧ s6.main = .loop (p + 1) ∧ s6.qin = s.qin ∧
      s6.qout = [] ∧ (consumed s6.log).map Prod.fst = l.take (p + 1) ∧ s6.ws = setW s.ws w .fetch := by
    have e4 : step c s3 .main = some { s3 with qout := [], main := .got p i r } := by
      simp only [step, mainStep, m3, hp, if_pos, o3]
    have r4 := r3.step e4
    cases hk : c.kind with
    | partialFit =>
      have e5 : step c { s3 with qout := [], main := .got p i r } .main = some
          { flush { s3 with qout := [], main := .got p i r } with main := .mid p i r } := by
        simp only [step, mainStep, hk]
      have r5 := r4.step e5
      have e6 : ∀ t : St M R c.W, t.main = .mid p i r →
          step c t .main = some { consume c t i r with main := .loop (p + 1) } := by
        intro t ht
        simp only [step, mainStep, ht, hk]
      exact ⟨_, r5.step (e6 _ rfl), rfl, by simp [q3], by simp, by simp [l3, h.log, htake], by simp [w3]⟩
    | transform =>
      have e5 : step c { s3 with qout := [], main := .got p i r } .main = some
          { consume c { s3 with qout := [], main := .got p i r } i r with main := .mid p i r } := by
        simp only [step, mainStep, hk]
      have r5 := r4.step e5
      have e6 : ∀ t : St M R c.W, t.main = .mid p i r →
          step c t .main = some { flush t with main := .loop (p + 1) } := by
        intro t ht
        simp only [step, mainStep, ht, hk]
      exact ⟨_, r5.step (e6 _ rfl), rfl, by simp [q3], by simp, by simp [l3, h.log, htake], by simp [w3]⟩
  -- the worker fetches the next document
  have hwf : s6.ws w = .fetch := by rw [w6]; simp
  have hmem : ∀ x, x ∉ l.take (p + 1) ↔ x ∉ l.take p ∧ x ≠ i := by
    intro x
    rw [htake]
    simp
  by_cases hn : p + c.W < c.n
  · have hq : s6.qin = (p + c.W) :: (List.range c.n).drop (p + c.W + 1) := by
      rw [q6, h.qin, List.drop_eq_getElem_cons (by simpa using hn)]
      simp
    have e7 : step c s6 (.worker w) = some
        { s6 with qin := (List.range c.n).drop (p + c.W + 1), ws := setW s6.ws w (.work (p + c.W)) } := by
      simp only [step, workerStep, w.isLt, dif_pos, Fin.eta, hwf, hq]
    have hnew : p + c.W ∉ l.take (p + 1) := by
      intro hx
      obtain ⟨q, hq'⟩ := List.mem_iff_getElem?.1 hx
      rw [List.getElem?_take] at hq'
      split at hq'
      · have := hlag q _ hq'
        omega
      · cases hq'
    refine ⟨_, r6.step e7, m6, o6, ?_, l6, ?_, ?_, ?_⟩
    · simp only
      congr 1
      omega
    · intro x hx hx' hx''
      by_cases hxe : x = p + c.W
      · exact ⟨w, by simp [hxe]⟩
      · obtain ⟨h1, h2⟩ := (hmem x).1 hx''
        obtain ⟨v, hv⟩ := h.held x hx (by omega) h1
        have hvw : v ≠ w := by
          rintro rfl
          rw [hw] at hv
          exact h2 (by cases hv; rfl)
        exact ⟨v, by simp only [w6, setW_ne _ _ hvw, hv]⟩
    · intro v
      by_cases hvw : v = w
      · subst hvw
        exact .inr ⟨p + c.W, by simp, hn, by omega, hnew⟩
      · rcases h.rest v with h1 | ⟨x, h1, h0, h2, h3⟩
        · exact .inl (by simp only [w6, setW_ne _ _ hvw, h1])
        · refine .inr ⟨x, by simp only [w6, setW_ne _ _ hvw, h1], h0, by omega, (hmem x).2 ⟨h3, ?_⟩⟩
          rintro rfl
          exact hvw (h.inj _ _ _ h1 hw)
    · intro v v' x hv hv'
      have old : ∀ z, z ≠ w → (setW s6.ws w (.work (p + c.W)) z = .work x) → s.ws z = .work x ∧ x < p + c.W := by
        intro z hz hzx
        rw [setW_ne _ _ hz, w6, setW_ne _ _ hz] at hzx
        refine ⟨hzx, ?_⟩
        rcases h.rest z with h1 | ⟨y, h1, _, h2, _⟩
        · rw [h1] at hzx; cases hzx
        · rw [h1] at hzx; cases hzx; exact h2
      by_cases h1 : v = w <;> by_cases h2 : v' = w
      · rw [h1, h2]
      · subst h1
        simp only [setW_same, WPc.work.injEq] at hv
        have := (old v' h2 hv').2
        omega
      · subst h2
        simp only [setW_same, WPc.work.injEq] at hv'
        have := (old v h1 hv).2
        omega
      · exact h.inj v v' x (old v h1 hv).1 (old v' h2 hv').1
  · have hq : s6.qin = [] := by
      rw [q6, h.qin, List.drop_of_length_le (by simp; omega)]
    have e7 : step c s6 (.worker w) = some { s6 with ws := setW s6.ws w .done } := by
      simp only [step, workerStep, w.isLt, dif_pos, Fin.eta, hwf, hq]
    refine ⟨_, r6.step e7, m6, o6, ?_, l6, ?_, ?_, ?_⟩
    · show s6.qin = _
      rw [hq, List.drop_of_length_le (by simp; omega)]
    · intro x hx hx' hx''
      obtain ⟨h1, h2⟩ := (hmem x).1 hx''
      obtain ⟨v, hv⟩ := h.held x hx (by omega) h1
      have hvw : v ≠ w := by
        rintro rfl
        rw [hw] at hv
        exact h2 (by cases hv; rfl)
      exact ⟨v, by simp only [w6, setW_ne _ _ hvw, hv]⟩
    · intro v
      by_cases hvw : v = w
      · subst hvw
        exact .inl (by simp)
      · rcases h.rest v with h1 | ⟨x, h1, h0, h2, h3⟩
        · exact .inl (by simp only [w6, setW_ne _ _ hvw, h1])
        · refine .inr ⟨x, by simp only [w6, setW_ne _ _ hvw, h1], h0, by omega, (hmem x).2 ⟨h3, ?_⟩⟩
          rintro rfl
          exact hvw (h.inj _ _ _ h1 hw)
    · intro v v' x hv hv'
      have old : ∀ z, (setW s6.ws w .done z = .work x) → s.ws z = .work x := by
        intro z hzx
        by_cases hz : z = w
        · subst hz
          simp at hzx
        · rwa [setW_ne _ _ hz, w6, setW_ne _ _ hz] at hzx
      exact h.inj v v' x (old v hv) (old v' hv')

theorem join_all {c : Cfg M P R} {m : M} {s : St M R c.W} (hr : Reachable c m s) (hm : s.main = .join 0)
    (hd : ∀ w, s.ws w = .done) : ∀ j ≤ c.W, ∃ s', Reachable c m s' ∧ s'.main = .join j ∧ s'.log = s.log ∧
    ∀ w, s'.ws w = .done := by
  intro j
  induction j with
  | zero => exact fun _ => ⟨s, hr, hm, rfl, hd⟩
  | succ j ih =>
    intro hj
    obtain ⟨s', h1, h2, h3, h4⟩ := ih (by omega)
    have hs : step c s' .main = some { s' with main := .join (j + 1) } := by
      simp only [step, mainStep, h2]
      rw [dif_pos (show j < c.W from hj), h4]
    exact ⟨_, h1.step hs, rfl, h3, h4⟩

/-- **C95**: every such order is possible: for every permutation of the documents in which none is more than
`W - 1` positions early there is a schedule of `partial_fit` or `transform` that returns and in which the results
arrive in this order. -/
theorem C95_possible (c : Cfg M P R) (m : M) {l : List ℕ} (hl : l.Perm (List.range c.n)) (hlag : Lag c.W l) :
    ∃ s, Reachable c m s ∧ Returned s ∧ (consumed s.log).map Prod.fst = l := by
  have hlen : l.length = c.n := by simpa using hl.length_eq
  have key : ∀ p ≤ c.n, ∃ s, Ready c m l p s := by
    intro p
    induction p with
    | zero => exact fun _ => ready_zero c m l
    | succ p ih =>
      intro hp
      obtain ⟨s, hs⟩ := ih (by omega)
      exact ready_succ hl hlag (by omega) hs
  obtain ⟨s, hs⟩ := key c.n le_rfl
  have hlog : (consumed s.log).map Prod.fst = l := by rw [hs.log, List.take_of_length_le (by omega)]
  have hdone : ∀ w, s.ws w = .done := by
    intro w
    rcases hs.rest w with h | ⟨i, h1, h2, _, h3⟩
    · exact h
    · rw [List.take_of_length_le (by omega), hl.mem_iff, List.mem_range] at h3
      exact absurd h2 h3
  have e1 : step c s .main = some { s with main := .join 0 } := by
    simp [step, mainStep, hs.main]
  obtain ⟨t, t1, t2, t3, t4⟩ := join_all (hs.reach.step e1) rfl hdone c.W le_rfl
  have hlog' : (consumed t.log).map Prod.fst = l := by rw [t3]; exact hlog
  cases hk : c.kind with
  | transform =>
    have e2 : step c t .main = some { t with main := .ret } := by
      simp [step, mainStep, t2, hk]
    exact ⟨_, t1.step e2, rfl, hlog'⟩
  | partialFit =>
    have e2 : step c t .main = some { t with main := .post } := by
      simp [step, mainStep, t2, hk]
    have r2 := t1.step e2
    have e3 : ∀ t : St M R c.W, t.main = .post → step c t .main = some
        { emitM c { t with model := (c.batch t.model).1, log := t.log ++ [.batch] } (c.batch t.model).2 with
          main := .epoch } := by
      intro t ht
      simp only [step, mainStep, ht]
    have r3 := r2.step (e3 _ rfl)
    have e4 : ∀ t : St M R c.W, t.main = .epoch → step c t .main = some
        { dispatch c t .epoch with main := .ret } := by
      intro t ht
      simp only [step, mainStep, ht]
    refine ⟨_, r3.step (e4 _ rfl), rfl, ?_⟩
    simpa using hlog'

/-- **C95**: the orders in which the results can arrive are exactly these.  (Without workers and with documents
there are none.) -/
theorem C95_orders (c : Cfg M P R) (m : M) (l : List ℕ) :
    (∃ s, Reachable c m s ∧ Returned s ∧ (consumed s.log).map Prod.fst = l) ↔
      l.Perm (List.range c.n) ∧ Lag c.W l :=
  ⟨fun ⟨_, h1, h2, h3⟩ => h3 ▸ ⟨(C01_each_document_once h1 h2).1, C95_bounded h1⟩,
    fun h => C95_possible c m h.1 h.2⟩

/-- Four documents and two workers: the last three may arrive before the first, but the last not before the
second. -/
example : (∃ s, Reachable (demo .partialFit true 2 4) (1, []) s ∧ Returned s ∧
      (consumed s.log).map Prod.fst = [1, 2, 3, 0]) ∧
    ¬ ∃ s, Reachable (demo .partialFit true 2 4) (1, []) s ∧ Returned s ∧
      (consumed s.log).map Prod.fst = [0, 3, 1, 2] := by
  constructor
  · rw [C95_orders]
    refine ⟨by decide, ?_⟩
    intro p i hp
    match p with
    | 0 | 1 | 2 | 3 =>
      simp at hp
      simp [demo, ← hp]
    | p + 4 => simp at hp
  · rw [C95_orders]
    rintro ⟨_, h⟩
    have := h 1 3 rfl
    simp [demo] at this

/-- **C95**: with one worker there is only the order of the corpus. -/
theorem C95_one_worker (n : ℕ) (l : List ℕ) (h : l.Perm (List.range n)) : Lag 1 l ↔ l = List.range n := by
  constructor
  · intro hl
    have hlen : l.length = n := by simpa using h.length_eq
    have hnd : l.Nodup := h.nodup_iff.2 List.nodup_range
    have key : ∀ p i : ℕ, l[p]? = some i → i = p := by
      intro p
      induction p using Nat.strong_induction_on with
      | _ p ih =>
        intro i hi
        have h1 := hl p i hi
        by_contra hne
        have h2 : i < p := by omega
        have hp : p < l.length := by
          by_contra hp
          rw [List.getElem?_eq_none (by omega)] at hi
          cases hi
        have h3 : l[i]? = some i := by
          obtain ⟨j, hj⟩ : ∃ j, l[i]? = some j := ⟨l[i]'(by omega), List.getElem?_eq_getElem _⟩
          rw [hj, ih i h2 j hj]
        have := (List.getElem?_inj (by omega) hnd).1 (h3.trans hi.symm)
        omega
    apply List.ext_getElem?
    intro p
    by_cases hp : p < n
    · obtain ⟨i, hi⟩ : ∃ i, l[p]? = some i := ⟨l[p]'(by omega), List.getElem?_eq_getElem _⟩
      rw [hi, key p i hi]
      simp [hp]
    · rw [List.getElem?_eq_none (by omega), List.getElem?_eq_none (by simp; omega)]
  · rintro rfl p i hp
    have := List.mem_of_getElem? hp
    by_cases hpn : p < n
    · rw [List.getElem?_range hpn] at hp
      cases hp
      omega
    · rw [List.getElem?_eq_none (by simp; omega)] at hp
      cases hp

end Verif.Pool
