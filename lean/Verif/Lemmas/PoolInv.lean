import Verif.Lemmas.Pool

/-! Inductive invariants of the worker pool. -/
namespace Verif.Pool

open Finset

variable {M P R : Type}

/-! ### Life cycle of the workers -/

/-- While threads are being created exactly the first `j` exist; later all of them do; the first
`j` of `join j` have finished. -/
def BornP (W : Nat) (pc : MPc R) (ws : Fin W → WPc R) : Prop :=
  match pc with
  | .spawn j => j ≤ W ∧ ∀ w : Fin W, j ≤ w ↔ ws w = .unborn
  | .join j => j ≤ W ∧ (∀ w, ws w ≠ .unborn) ∧ ∀ w : Fin W, w < j → ws w = .done
  | .loop _ | .waiting _ | .got _ _ _ | .mid _ _ _ => ∀ w, ws w ≠ .unborn
  | .post | .epoch | .ret => ∀ w, ws w = .done

theorem BornP.setW {W : Nat} {pc : MPc R} {ws : Fin W → WPc R} {j : Fin W} {v : WPc R}
    (h : BornP W pc ws) (h1 : ws j ≠ .unborn) (h2 : ws j ≠ .done) (hv : v ≠ .unborn) :
    BornP W pc (setW ws j v) := by
  have key : ∀ w, Pool.setW ws j v w ≠ .unborn ↔ ws w ≠ .unborn := by
    intro w
    by_cases hw : w = j
    · subst hw; simp [h1, hv]
    · rw [setW_ne _ _ hw]
  have key2 : ∀ w, ws w = .done → Pool.setW ws j v w = .done := by
    intro w hd
    by_cases hw : w = j
    · subst hw; exact absurd hd h2
    · rw [setW_ne _ _ hw]; exact hd
  cases pc <;> simp only [BornP] at h ⊢
  case spawn k =>
    refine ⟨h.1, fun w => ?_⟩
    rw [h.2 w]
    exact not_iff_not.1 (key w).symm
  case join k => exact ⟨h.1, fun w => (key w).2 (h.2.1 w), fun w hw => key2 w (h.2.2 w hw)⟩
  case post => exact absurd (h j) h2
  case epoch => exact absurd (h j) h2
  case ret => exact absurd (h j) h2
  all_goals exact fun w => (key w).2 (h w)

theorem BornP.wake {W : Nat} {pc : MPc R} {ws : Fin W → WPc R} (h : BornP W pc ws) :
    BornP W (wake pc) ws := by
  cases pc <;> exact h

theorem born_step {c : Cfg M P R} {s s' : St M R c.W} {a : Act} (hI : BornP c.W s.main s.ws)
    (ht : Trans c s a s') : BornP c.W s'.main s'.ws := by
  · cases ht with
    | fetchDone j h hq => exact hI.setW (by simp [h]) (by simp [h]) (by simp)
    | fetchJob j i' q h hq => exact hI.setW (by simp [h]) (by simp [h]) (by simp)
    | work j i' h => exact hI.setW (by simp [h]) (by simp [h]) (by simp)
    | push j i' r h => exact hI.setW (by simp [h]) (by simp [h]) (by simp)
    | notify j h => exact (hI.setW (by simp [h]) (by simp [h]) (by simp)).wake
    | spawn j hj h =>
      simp only [h, BornP] at hI ⊢
      refine ⟨hj, fun w => ?_⟩
      by_cases hw : w = ⟨j, hj⟩
      · subst hw; simp
      · rw [setW_ne _ _ hw, ← hI.2 w]
        have : (w : Nat) ≠ j := fun e => hw (Fin.ext e)
        omega
    | spawned j hj h =>
      simp only [h, BornP] at hI ⊢
      intro w hw
      have := (hI.2 w).2 hw
      omega
    | wait k hk h hq => simpa [h, BornP] using hI
    | extract k i' r q hk h hq => simpa [h, BornP] using hI
    | loopEnd k hk h =>
      simp only [h, BornP] at hI ⊢
      exact ⟨Nat.zero_le _, hI, fun w hw => absurd hw (Nat.not_lt_zero _)⟩
    | pfProcess k i' r hk h => simpa [h, BornP] using hI
    | trConsume k i' r hk h => simpa [h, BornP] using hI
    | pfConsume k i' r hk h => simpa [h, BornP] using hI
    | trProcess k i' r hk h => simpa [h, BornP] using hI
    | join j hj h hd =>
      simp only [h, BornP] at hI ⊢
      refine ⟨hj, hI.2.1, fun w hw => ?_⟩
      by_cases e : (w : Nat) = j
      · have : w = ⟨j, hj⟩ := Fin.ext e
        rw [this]; exact hd
      · exact hI.2.2 w (by omega)
    | pfJoined j hj hk h =>
      simp only [h, BornP] at hI ⊢
      exact fun w => hI.2.2 w (by omega)
    | trJoined j hj hk h =>
      simp only [h, BornP] at hI ⊢
      exact fun w => hI.2.2 w (by omega)
    | post h => simpa [h, BornP] using hI
    | epoch h => simpa [h, BornP] using hI
    | spurious k h => simpa [h, BornP] using hI

theorem inv_born {c : Cfg M P R} {m : M} :
    ∀ s, Reachable c m s → BornP c.W s.main s.ws := by
  apply reachable_induct
  · simp [BornP, init, start, Left.empty]
  · exact fun s a s' _ hI ht => born_step hI ht

/-- A worker only leaves when the input queue is empty, and the queue is never refilled. -/
theorem inv_done {c : Cfg M P R} {m : M} :
    ∀ s, Reachable c m s → (∃ w, s.ws w = .done) → s.qin = [] := by
  apply reachable_induct
  · rintro ⟨w, hw⟩; cases hw
  · intro s a s' hr hI ht
    have keep : ∀ (j : Fin c.W) (v : WPc R), v ≠ .done →
        (∃ w, setW s.ws j v w = .done) → ∃ w, s.ws w = .done := by
      rintro j v hv ⟨w, hw⟩
      by_cases e : w = j
      · subst e; simp at hw; exact absurd hw hv
      · rw [setW_ne _ _ e] at hw; exact ⟨w, hw⟩
    cases ht with
    | fetchDone j h hq => intro _; exact hq
    | fetchJob j i' q h hq =>
      intro hw
      have := hI (keep j _ (by simp) hw)
      rw [hq] at this; cases this
    | work j i' h => intro hw; exact hI (keep j _ (by simp) hw)
    | push j i' r h => intro hw; exact hI (keep j _ (by simp) hw)
    | notify j h => intro hw; exact hI (keep j _ (by simp) hw)
    | spawn j hj h => intro hw; exact hI (keep ⟨j, hj⟩ _ (by simp) hw)
    | _ => simpa using hI

/-! ### Every document is in exactly one place -/

/-- Document held by a worker that has not evaluated it yet. -/
def wpre (i : Nat) : WPc R → Nat
  | .work i' => if i' = i then 1 else 0
  | _ => 0

/-- Document held by a worker that has evaluated it. -/
def wpost (i : Nat) : WPc R → Nat
  | .push i' _ => if i' = i then 1 else 0
  | _ => 0

/-- Document in the hands of the calling thread, not given to the M step yet. -/
def mtok (kd : Kind) (i : Nat) : MPc R → Nat
  | .got _ i' _ => if i' = i then 1 else 0
  | .mid _ i' _ => match kd with
    | .partialFit => if i' = i then 1 else 0
    | .transform => 0
  | _ => 0

/-- Document whose E-step event may still be queued although the calling thread has taken it. -/
def mev (kd : Kind) (i : Nat) : MPc R → Nat
  | .got _ i' _ => if i' = i then 1 else 0
  | .mid _ i' _ => match kd with
    | .partialFit => 0
    | .transform => if i' = i then 1 else 0
  | _ => 0

@[simp] theorem wpre_unborn (i : Nat) : wpre (R := R) i .unborn = 0 := rfl
@[simp] theorem wpre_fetch (i : Nat) : wpre (R := R) i .fetch = 0 := rfl
@[simp] theorem wpre_work (i : Nat) (i' : Nat) : wpre (R := R) i (.work i') = if i' = i then 1 else 0 := rfl
@[simp] theorem wpre_push (i : Nat) (i' : Nat) (r : R) : wpre (R := R) i (.push i' r) = 0 := rfl
@[simp] theorem wpre_notify (i : Nat) : wpre (R := R) i .notify = 0 := rfl
@[simp] theorem wpre_done (i : Nat) : wpre (R := R) i .done = 0 := rfl
@[simp] theorem wpost_unborn (i : Nat) : wpost (R := R) i .unborn = 0 := rfl
@[simp] theorem wpost_fetch (i : Nat) : wpost (R := R) i .fetch = 0 := rfl
@[simp] theorem wpost_work (i : Nat) (i' : Nat) : wpost (R := R) i (.work i') = 0 := rfl
@[simp] theorem wpost_push (i : Nat) (i' : Nat) (r : R) : wpost (R := R) i (.push i' r) = if i' = i then 1 else 0 := rfl
@[simp] theorem wpost_notify (i : Nat) : wpost (R := R) i .notify = 0 := rfl
@[simp] theorem wpost_done (i : Nat) : wpost (R := R) i .done = 0 := rfl
@[simp] theorem mtok_spawn (kd : Kind) (i : Nat) (k : Nat) : mtok (R := R) kd i (.spawn k) = 0 := rfl
@[simp] theorem mtok_loop (kd : Kind) (i : Nat) (k : Nat) : mtok (R := R) kd i (.loop k) = 0 := rfl
@[simp] theorem mtok_waiting (kd : Kind) (i : Nat) (k : Nat) : mtok (R := R) kd i (.waiting k) = 0 := rfl
@[simp] theorem mtok_join (kd : Kind) (i : Nat) (k : Nat) : mtok (R := R) kd i (.join k) = 0 := rfl
@[simp] theorem mtok_post (kd : Kind) (i : Nat) : mtok (R := R) kd i .post = 0 := rfl
@[simp] theorem mtok_epoch (kd : Kind) (i : Nat) : mtok (R := R) kd i .epoch = 0 := rfl
@[simp] theorem mtok_ret (kd : Kind) (i : Nat) : mtok (R := R) kd i .ret = 0 := rfl
@[simp] theorem mtok_got (kd : Kind) (i k i' : Nat) (r : R) : mtok kd i (.got k i' r) = if i' = i then 1 else 0 := rfl
@[simp] theorem mtok_mid_partialFit (i k i' : Nat) (r : R) : mtok .partialFit i (.mid k i' r) = if i' = i then 1 else 0 := rfl
@[simp] theorem mtok_mid_transform (i k i' : Nat) (r : R) : mtok .transform i (.mid k i' r) = 0 := rfl
@[simp] theorem mev_spawn (kd : Kind) (i : Nat) (k : Nat) : mev (R := R) kd i (.spawn k) = 0 := rfl
@[simp] theorem mev_loop (kd : Kind) (i : Nat) (k : Nat) : mev (R := R) kd i (.loop k) = 0 := rfl
@[simp] theorem mev_waiting (kd : Kind) (i : Nat) (k : Nat) : mev (R := R) kd i (.waiting k) = 0 := rfl
@[simp] theorem mev_join (kd : Kind) (i : Nat) (k : Nat) : mev (R := R) kd i (.join k) = 0 := rfl
@[simp] theorem mev_post (kd : Kind) (i : Nat) : mev (R := R) kd i .post = 0 := rfl
@[simp] theorem mev_epoch (kd : Kind) (i : Nat) : mev (R := R) kd i .epoch = 0 := rfl
@[simp] theorem mev_ret (kd : Kind) (i : Nat) : mev (R := R) kd i .ret = 0 := rfl
@[simp] theorem mev_got (kd : Kind) (i k i' : Nat) (r : R) : mev kd i (.got k i' r) = if i' = i then 1 else 0 := rfl
@[simp] theorem mev_mid_partialFit (i k i' : Nat) (r : R) : mev .partialFit i (.mid k i' r) = 0 := rfl
@[simp] theorem mev_mid_transform (i k i' : Nat) (r : R) : mev .transform i (.mid k i' r) = if i' = i then 1 else 0 := rfl

@[simp] theorem mtok_wake (kd : Kind) (i : Nat) (pc : MPc R) : mtok kd i (wake pc) = mtok kd i pc := by
  cases pc <;> rfl
@[simp] theorem mev_wake (kd : Kind) (i : Nat) (pc : MPc R) : mev kd i (wake pc) = mev kd i pc := by
  cases pc <;> rfl

def TokInv (c : Cfg M P R) (s : St M R c.W) : Prop :=
  ∀ i, s.qin.count i + (∑ w, wpre i (s.ws w)) + (∑ w, wpost i (s.ws w)) +
    (s.qout.map Prod.snd).count i + mtok c.kind i s.main + ((consumed s.log).map Prod.fst).count i
      = if i < c.n then 1 else 0

theorem count_range (n i : Nat) : (List.range n).count i = if i < n then 1 else 0 := by
  rw [List.nodup_range.count]; simp

theorem tok_step {c : Cfg M P R} {s s' : St M R c.W} {a : Act} {i x : Nat} (h3 : BornP c.W s.main s.ws)
    (hi : s.qin.count i + (∑ w, wpre i (s.ws w)) + (∑ w, wpost i (s.ws w)) +
      (s.qout.map Prod.snd).count i + mtok c.kind i s.main + ((consumed s.log).map Prod.fst).count i = x)
    (ht : Trans c s a s') :
    s'.qin.count i + (∑ w, wpre i (s'.ws w)) + (∑ w, wpost i (s'.ws w)) +
      (s'.qout.map Prod.snd).count i + mtok c.kind i s'.main + ((consumed s'.log).map Prod.fst).count i = x := by
  · cases ht with
    | fetchDone j h hq =>
      have h1 := sum_setW (wpre i) s.ws j .done
      have h2 := sum_setW (wpost i) s.ws j .done
      simp [h] at h1 h2 ⊢
      omega
    | fetchJob j i' q h hq =>
      have h1 := sum_setW (wpre i) s.ws j (.work i')
      have h2 := sum_setW (wpost i) s.ws j (.work i')
      simp [h, hq, List.count_cons] at h1 h2 hi ⊢
      omega
    | work j i' h =>
      have h1 := sum_setW (wpre i) s.ws j (.push i' (c.eval (c.params s.model) i'))
      have h2 := sum_setW (wpost i) s.ws j (.push i' (c.eval (c.params s.model) i'))
      simp [h] at h1 h2 ⊢
      omega
    | push j i' r h =>
      have h1 := sum_setW (wpre i) s.ws j .notify
      have h2 := sum_setW (wpost i) s.ws j .notify
      simp [h, List.count_append, List.count_singleton] at h1 h2 ⊢
      omega
    | notify j h =>
      have h1 := sum_setW (wpre i) s.ws j .fetch
      have h2 := sum_setW (wpost i) s.ws j .fetch
      simp [h] at h1 h2 ⊢
      omega
    | spawn j hj h =>
      have h1 := sum_setW (wpre i) s.ws ⟨j, hj⟩ .fetch
      have h2 := sum_setW (wpost i) s.ws ⟨j, hj⟩ .fetch
      simp only [h, BornP] at h3
      have h4 := (h3.2 ⟨j, hj⟩).1 (Nat.le_refl _)
      simp [h, h4] at h1 h2 hi ⊢
      omega
    | spawned j hj h => simp [h] at hi ⊢; omega
    | wait k hk h hq => simp [h] at hi ⊢; omega
    | extract k i' r q hk h hq => simp [h, hq, List.count_cons] at hi ⊢; omega
    | loopEnd k hk h => simp [h] at hi ⊢; omega
    | pfProcess k i' r hk h => simp [h, hk] at hi ⊢; omega
    | trConsume k i' r hk h =>
      simp [h, hk, List.count_append, List.count_singleton] at hi ⊢; omega
    | pfConsume k i' r hk h =>
      simp [h, hk, List.count_append, List.count_singleton] at hi ⊢; omega
    | trProcess k i' r hk h => simp [h, hk] at hi ⊢; omega
    | join j hj h hd => simp [h] at hi ⊢; omega
    | pfJoined j hj hk h => simp [h] at hi ⊢; omega
    | trJoined j hj hk h => simp [h] at hi ⊢; omega
    | post h => simp [h] at hi ⊢; omega
    | epoch h => simp [h] at hi ⊢; omega
    | spurious k h => simp [h] at hi ⊢; omega

theorem inv_tok {c : Cfg M P R} {m : M} : ∀ s, Reachable c m s → TokInv c s := by
  apply reachable_induct
  · intro i
    simp [init, start, Left.empty, wpre, wpost, mtok]
  · exact fun s a s' hr hI ht i => tok_step (inv_born s hr) (hI i) ht

/-! ### The loop counter -/

/-- The loop counter is the number of results handed over. -/
def CntP (c : Cfg M P R) (pc : MPc R) (len : Nat) : Prop :=
  match pc with
  | .spawn _ => len = 0
  | .loop k => k = len ∧ k ≤ c.n
  | .waiting k => k = len ∧ k < c.n
  | .got k _ _ => k = len ∧ k < c.n
  | .mid k _ _ => k < c.n ∧ match c.kind with
    | .partialFit => k = len
    | .transform => k + 1 = len
  | .join _ | .post | .epoch | .ret => len = c.n

theorem cnt_step {c : Cfg M P R} {s s' : St M R c.W} {a : Act} (hI : CntP c s.main (consumed s.log).length)
    (ht : Trans c s a s') : CntP c s'.main (consumed s'.log).length := by
  · cases ht with
    | notify j h =>
      cases hm : s.main <;> simp only [hm, CntP, wake] at hI ⊢ <;> first | exact hI | omega
    | spawn j hj h => simpa [h, CntP] using hI
    | spawned j hj h => simp [h, CntP] at hI ⊢; simp [hI]
    | wait k hk h hq => simp [h, CntP] at hI ⊢; omega
    | extract k i' r q hk h hq => simp [h, CntP] at hI ⊢; omega
    | loopEnd k hk h => simp [h, CntP] at hI ⊢; omega
    | pfProcess k i' r hk h => simp [h, CntP, hk] at hI ⊢; omega
    | trConsume k i' r hk h => simp [h, CntP, hk] at hI ⊢; omega
    | pfConsume k i' r hk h => simp [h, CntP, hk] at hI ⊢; omega
    | trProcess k i' r hk h => simp [h, CntP, hk] at hI ⊢; omega
    | join j hj h hd => simpa [h, CntP] using hI
    | pfJoined j hj hk h => simpa [h, CntP] using hI
    | trJoined j hj hk h => simpa [h, CntP] using hI
    | post h => simpa [h, CntP] using hI
    | epoch h => simpa [h, CntP] using hI
    | spurious k h => simp [h, CntP] at hI ⊢; omega
    | _ => exact hI

theorem inv_cnt {c : Cfg M P R} {m : M} :
    ∀ s, Reachable c m s → CntP c s.main (consumed s.log).length := by
  apply reachable_induct
  · simp [CntP, init, start, Left.empty]
  · exact fun s a s' _ hI ht => cnt_step hI ht

/-! ### No lost wakeup -/

/-- If the caller is blocked and a result is available, some worker has yet to notify. -/
theorem inv_wake {c : Cfg M P R} {m : M} :
    ∀ s, Reachable c m s → ∀ k, s.main = .waiting k → s.qout ≠ [] → ∃ w, s.ws w = .notify := by
  apply reachable_induct
  · intro k hk; cases hk
  · intro s a s' _ hI ht
    have keep : ∀ (j : Fin c.W) (v : WPc R), s.ws j ≠ .notify →
        (∃ w, s.ws w = .notify) → ∃ w, setW s.ws j v w = .notify := by
      rintro j v hj ⟨w, hw⟩
      refine ⟨w, ?_⟩
      have e : w ≠ j := by rintro rfl; exact hj hw
      rw [setW_ne _ _ e]
      exact hw
    cases ht with
    | fetchDone j h hq => exact fun k hk hq => keep j _ (by simp [h]) (hI k hk hq)
    | fetchJob j i' q h hq => exact fun k hk hq => keep j _ (by simp [h]) (hI k hk hq)
    | work j i' h => exact fun k hk hq => keep j _ (by simp [h]) (hI k hk hq)
    | push j i' r h => exact fun k hk hq => ⟨j, by simp⟩
    | notify j h =>
      intro k hk
      cases hm : s.main <;> simp [hm, wake] at hk
    | wait k hk h hq => exact fun _ _ hne => absurd hq hne
    | _ => intro k hk; simp_all

/-! ### Events -/

/-- Every evaluated document has exactly one E-step event, delivered or queued. -/
def EvInv (c : Cfg M P R) (s : St M R c.W) : Prop :=
  ∀ i, (delivered s.log ++ s.evq).count (.exp i) + s.qin.count i + (∑ w, wpre i (s.ws w))
    = if i < c.n then 1 else 0

theorem inv_ev {c : Cfg M P R} {m : M} : ∀ s, Reachable c m s → EvInv c s := by
  apply reachable_induct
  · intro i
    simp [init, start, Left.empty]
  · intro s a s' hr hI ht i
    have hi := hI i
    cases ht with
    | fetchDone j h hq =>
      have h1 := sum_setW (wpre i) s.ws j .done
      simp [h] at h1 hi ⊢; omega
    | fetchJob j i' q h hq =>
      have h1 := sum_setW (wpre i) s.ws j (.work i')
      simp [h, hq, List.count_cons] at h1 hi ⊢; omega
    | work j i' h =>
      have h1 := sum_setW (wpre i) s.ws j (.push i' (c.eval (c.params s.model) i'))
      simp [h, List.count_append, List.count_singleton] at h1 hi ⊢; omega
    | push j i' r h =>
      have h1 := sum_setW (wpre i) s.ws j .notify
      simp [h] at h1 hi ⊢; omega
    | notify j h =>
      have h1 := sum_setW (wpre i) s.ws j .fetch
      simp [h] at h1 hi ⊢; omega
    | spawn j hj h =>
      have h1 := sum_setW (wpre i) s.ws ⟨j, hj⟩ .fetch
      have h3 := inv_born s hr
      simp only [h, BornP] at h3
      have h4 := (h3.2 ⟨j, hj⟩).1 (Nat.le_refl _)
      simp [h4] at h1 hi ⊢; omega
    | pfProcess k i' r hk h => simp at hi ⊢; omega
    | trConsume k i' r hk h =>
      have := congrArg (List.count (.exp i)) (allEv_consume c s i' r)
      simp [List.count_replicate] at this hi ⊢; omega
    | pfConsume k i' r hk h =>
      have := congrArg (List.count (.exp i)) (allEv_consume c s i' r)
      simp [List.count_replicate] at this hi ⊢; omega
    | trProcess k i' r hk h => simp at hi ⊢; omega
    | post h =>
      have := congrArg (List.count (.exp i)) (allEv_emitM c
        { s with model := (c.batch s.model).1, log := s.log ++ [.batch] } (c.batch s.model).2)
      simp [List.count_replicate] at this hi ⊢; omega
    | epoch h =>
      have := congrArg (List.count (.exp i)) (allEv_dispatch c s .epoch)
      simp at this hi ⊢; omega
    | _ => exact hi

/-- A queued E-step event belongs to a document whose result has not been processed yet. -/
def EvLoc (c : Cfg M P R) (s : St M R c.W) : Prop :=
  ∀ i, s.evq.count (.exp i) ≤ (∑ w, wpost i (s.ws w)) + (s.qout.map Prod.snd).count i +
    mev c.kind i s.main

theorem inv_evloc {c : Cfg M P R} {m : M} : ∀ s, Reachable c m s → EvLoc c s := by
  apply reachable_induct
  · intro i
    simp [init, start, Left.empty]
  · intro s a s' hr hI ht i
    have hi := hI i
    cases ht with
    | fetchDone j h hq =>
      have h1 := sum_setW (wpost i) s.ws j .done
      simp [h] at h1 hi ⊢; omega
    | fetchJob j i' q h hq =>
      have h1 := sum_setW (wpost i) s.ws j (.work i')
      simp [h] at h1 hi ⊢; omega
    | work j i' h =>
      have h1 := sum_setW (wpost i) s.ws j (.push i' (c.eval (c.params s.model) i'))
      simp [h, List.count_append, List.count_singleton] at h1 hi ⊢; omega
    | push j i' r h =>
      have h1 := sum_setW (wpost i) s.ws j .notify
      simp [h, List.count_append, List.count_singleton] at h1 hi ⊢; omega
    | notify j h =>
      have h1 := sum_setW (wpost i) s.ws j .fetch
      simp [h] at h1 hi ⊢; omega
    | spawn j hj h =>
      have h1 := sum_setW (wpost i) s.ws ⟨j, hj⟩ .fetch
      have h3 := inv_born s hr
      simp only [h, BornP] at h3
      have h4 := (h3.2 ⟨j, hj⟩).1 (Nat.le_refl _)
      simp [h4, h] at h1 hi ⊢; omega
    | extract k i' r q hk h hq => simp [h, hq, List.count_cons] at hi ⊢; omega
    | pfProcess k i' r hk h => simp
    | trConsume k i' r hk h =>
      have := count_evq_consume_le c s i' r (.exp i) (by simp)
      simp [h, hk] at this hi ⊢; omega
    | pfConsume k i' r hk h =>
      have := count_evq_consume_le c s i' r (.exp i) (by simp)
      simp [h, hk] at this hi ⊢; omega
    | trProcess k i' r hk h => simp
    | post h =>
      have := count_evq_emitM_le c
        { s with model := (c.batch s.model).1, log := s.log ++ [.batch] } (c.batch s.model).2
        (.exp i) (by simp)
      simp [h] at this hi ⊢; omega
    | epoch h =>
      have := count_evq_dispatch_le c s .epoch (.exp i)
      simp [h] at this hi ⊢; omega
    | spawned j hj h => simpa [h] using hi
    | wait k hk h hq => simpa [h] using hi
    | loopEnd k hk h => simpa [h] using hi
    | join j hj h hd => simpa [h] using hi
    | pfJoined j hj hk h => simpa [h] using hi
    | trJoined j hj hk h => simpa [h] using hi
    | spurious k h => simpa [h] using hi

/-! ### The model state -/

/-- The model is the sequential fold over what was consumed, then the batch step. -/
def ModelP (c : Cfg M P R) (m : M) (pc : MPc R) (ds : List (Nat × R)) (x : M) : Prop :=
  match pc with
  | .epoch => c.kind = .partialFit ∧ x = (c.batch (seqDocs c m ds)).1
  | .ret => match c.kind with
    | .partialFit => x = (c.batch (seqDocs c m ds)).1
    | .transform => x = seqDocs c m ds
  | .post => c.kind = .partialFit ∧ x = seqDocs c m ds
  | _ => x = seqDocs c m ds

theorem seqDocs_snoc (c : Cfg M P R) (m : M) (ds : List (Nat × R)) (i : Nat) (r : R) :
    seqDocs c m (ds ++ [(i, r)]) = (c.docStep i r (seqDocs c m ds)).1 := by
  simp [seqDocs]

theorem inv_model {c : Cfg M P R} {m : M} :
    ∀ s, Reachable c m s → ModelP c m s.main (consumed s.log) s.model := by
  apply reachable_induct
  · simp [ModelP, init, start, Left.empty, seqDocs]
  · intro s a s' _ hI ht
    cases ht with
    | notify j h =>
      cases hm : s.main <;> simp only [hm, ModelP, wake] at hI ⊢ <;> exact hI
    | spawn j hj h => simpa [h, ModelP] using hI
    | spawned j hj h => simpa [h, ModelP] using hI
    | wait k hk h hq => simpa [h, ModelP] using hI
    | extract k i' r q hk h hq => simpa [h, ModelP] using hI
    | loopEnd k hk h => simpa [h, ModelP] using hI
    | pfProcess k i' r hk h => simpa [h, ModelP] using hI
    | trConsume k i' r hk h => simp [h, ModelP, seqDocs_snoc] at hI ⊢; rw [hI]
    | pfConsume k i' r hk h => simp [h, ModelP, seqDocs_snoc] at hI ⊢; rw [hI]
    | trProcess k i' r hk h => simpa [h, ModelP] using hI
    | join j hj h hd => simpa [h, ModelP] using hI
    | pfJoined j hj hk h => simpa [h, hk, ModelP] using hI
    | trJoined j hj hk h => simpa [h, hk, ModelP] using hI
    | post h => simp [h, ModelP] at hI ⊢; simp [hI]
    | epoch h => simp [h, ModelP] at hI ⊢; simp [hI]
    | spurious k h => simpa [h, ModelP] using hI
    | _ => exact hI

/-! ### Values of the results -/

/-- `r` is the E-step result of document `i` for the model as it was after some `j ≤ len` of the
documents `ds` had been handed over. -/
def ValidRes (c : Cfg M P R) (m : M) (ds : List (Nat × R)) (len : Nat) (i : Nat) (r : R) : Prop :=
  ∃ j, j ≤ len ∧ r = c.eval (c.params (seqDocs c m (ds.take j))) i

theorem ValidRes.append {c : Cfg M P R} {m : M} {ds es : List (Nat × R)} {len : Nat} {i : Nat}
    {r : R} (h : ValidRes c m ds len i r) (hl : len ≤ ds.length) :
    ValidRes c m (ds ++ es) len i r := by
  obtain ⟨j, hj, hr⟩ := h
  refine ⟨j, hj, ?_⟩
  rw [List.take_append_of_le_length (by omega)]
  exact hr

theorem ValidRes.mono {c : Cfg M P R} {m : M} {ds : List (Nat × R)} {len len' : Nat} {i : Nat}
    {r : R} (h : ValidRes c m ds len i r) (hl : len ≤ len') : ValidRes c m ds len' i r := by
  obtain ⟨j, hj, hr⟩ := h
  exact ⟨j, by omega, hr⟩

structure ValInv (c : Cfg M P R) (m : M) (s : St M R c.W) : Prop where
  push : ∀ w i r, s.ws w = .push i r →
    ValidRes c m (consumed s.log) (consumed s.log).length i r
  qout : ∀ i r, (r, i) ∈ s.qout → ValidRes c m (consumed s.log) (consumed s.log).length i r
  got : ∀ k i r, s.main = .got k i r →
    ValidRes c m (consumed s.log) (consumed s.log).length i r
  mid : ∀ k i r, c.kind = .partialFit → s.main = .mid k i r →
    ValidRes c m (consumed s.log) (consumed s.log).length i r
  log : ∀ t i r, (consumed s.log)[t]? = some (i, r) → ValidRes c m (consumed s.log) t i r

theorem ValInv.consume {c : Cfg M P R} {m : M} {s : St M R c.W} (h : ValInv c m s) (i : Nat) (r : R)
    (hv : ValidRes c m (consumed s.log) (consumed s.log).length i r)
    (pc : MPc R) (h1 : ∀ k i r, pc ≠ .got k i r)
    (h2 : c.kind = .partialFit → ∀ k i r, pc ≠ .mid k i r) :
    ValInv c m { consume c s i r with main := pc } where
  push w i' r' hw := by
    simp only [consume_ws, consumed_consumeStep] at hw ⊢
    exact ((h.push w i' r' hw).append (Nat.le_refl _)).mono (by simp)
  qout i' r' hq := by
    simp only [consume_qout, consumed_consumeStep] at hq ⊢
    exact ((h.qout i' r' hq).append (Nat.le_refl _)).mono (by simp)
  got k i' r' hm := absurd hm (h1 _ _ _)
  mid k i' r' hk hm := absurd hm (h2 hk _ _ _)
  log t i' r' ht := by
    simp only [consumed_consumeStep] at ht ⊢
    by_cases hlt : t < (consumed s.log).length
    · rw [List.getElem?_append_left hlt] at ht
      exact (h.log t i' r' ht).append (by omega)
    · rw [List.getElem?_append_right (by omega)] at ht
      have h0 : t - (consumed s.log).length = 0 := by
        by_contra hne
        rw [List.getElem?_eq_none (by simp; omega)] at ht
        cases ht
      rw [h0] at ht
      simp only [List.getElem?_cons_zero, Option.some.injEq, Prod.mk.injEq] at ht
      obtain ⟨rfl, rfl⟩ := ht
      exact (hv.append (Nat.le_refl _)).mono (by omega)

theorem inv_val {c : Cfg M P R} {m : M} : ∀ s, Reachable c m s → ValInv c m s := by
  apply reachable_induct
  · constructor <;> simp [init, start, Left.empty]
  · intro s a s' hr hI ht
    have pushKeep : ∀ (j : Fin c.W) (v : WPc R),
        (∀ i r, v = .push i r → ValidRes c m (consumed s.log) (consumed s.log).length i r) →
        ∀ w i r, setW s.ws j v w = .push i r →
          ValidRes c m (consumed s.log) (consumed s.log).length i r := by
      intro j v hv w i r hw
      by_cases e : w = j
      · subst e; simp at hw; exact hv i r hw
      · rw [setW_ne _ _ e] at hw; exact hI.push w i r hw
    cases ht with
    | fetchDone j h hq => exact { hI with push := pushKeep j _ (by simp) }
    | fetchJob j i' q h hq => exact { hI with push := pushKeep j _ (by simp) }
    | work j i' h =>
      refine { hI with push := pushKeep j _ ?_ }
      intro i r e
      cases e
      refine ⟨_, Nat.le_refl _, ?_⟩
      rw [List.take_length]
      have hm := inv_model s hr
      have hb := inv_born s hr
      have : s.model = seqDocs c m (consumed s.log) := by
        cases hmain : s.main <;> simp only [hmain, ModelP, BornP] at hm hb
        case post => exact hm.2
        case epoch => have := hb j; simp [h] at this
        case ret => have := hb j; simp [h] at this
        all_goals exact hm
      rw [this]
    | push j i' r h =>
      refine { hI with push := pushKeep j _ (by simp), qout := ?_ }
      intro i r' hq
      simp only [List.mem_append, List.mem_singleton, Prod.mk.injEq] at hq
      rcases hq with hq | ⟨rfl, rfl⟩
      · exact hI.qout i r' hq
      · exact hI.push j _ _ h
    | notify j h =>
      refine { hI with push := pushKeep j _ (by simp), got := ?_, mid := ?_ }
      · intro k i r hm
        cases e : s.main <;> simp [e, wake] at hm
        obtain ⟨rfl, rfl, rfl⟩ := hm
        exact hI.got _ _ _ e
      · intro k i r hk hm
        cases e : s.main <;> simp [e, wake] at hm
        obtain ⟨rfl, rfl, rfl⟩ := hm
        exact hI.mid _ _ _ hk e
    | spawn j hj h =>
      exact { hI with push := pushKeep ⟨j, hj⟩ _ (by simp), got := by simp, mid := by simp }
    | extract k i' r q hk h hq =>
      refine { hI with qout := ?_, got := ?_, mid := by simp }
      · intro i r' hm; exact hI.qout i r' (by rw [hq]; exact List.mem_cons_of_mem _ hm)
      · intro k' i r' e
        cases e
        exact hI.qout _ _ (by rw [hq]; exact List.mem_cons_self)
    | pfProcess k i' r hk h =>
      have hg := hI.got k i' r h
      constructor
      · simpa using hI.push
      · simpa using hI.qout
      · simp
      · intro k' i r' _ e; cases e; simpa using hg
      · simpa using hI.log
    | trConsume k i' r hk h =>
      exact hI.consume i' r (hI.got k i' r h) _ (by simp) (by simp [hk])
    | pfConsume k i' r hk h =>
      exact hI.consume i' r (hI.mid k i' r hk h) _ (by simp) (by simp)
    | trProcess k i' r hk h =>
      constructor
      · simpa using hI.push
      · simpa using hI.qout
      · simp
      · simp
      · simpa using hI.log
    | post h =>
      constructor
      · simpa using hI.push
      · simpa using hI.qout
      · simp
      · simp
      · simpa using hI.log
    | epoch h =>
      constructor
      · simpa using hI.push
      · simpa using hI.qout
      · simp
      · simp
      · simpa using hI.log
    | spawned j hj h => exact { hI with got := by simp, mid := by simp }
    | wait k hk h hq => exact { hI with got := by simp, mid := by simp }
    | loopEnd k hk h => exact { hI with got := by simp, mid := by simp }
    | join j hj h hd => exact { hI with got := by simp, mid := by simp }
    | pfJoined j hj hk h => exact { hI with got := by simp, mid := by simp }
    | trJoined j hj hk h => exact { hI with got := by simp, mid := by simp }
    | spurious k h => exact { hI with got := by simp, mid := by simp }

/-! ### Shape of the log -/

/-- No batch step and no epoch event so far. -/
def PreLog (l : List (Obs R)) : Prop := Obs.batch ∉ l ∧ Obs.deliver .epoch ∉ l

theorem mem_deliver {es : List Ev} {e : Ev} :
    Obs.deliver (R := R) e ∈ es.map Obs.deliver ↔ e ∈ es := by
  simp

theorem PreLog.append {l : List (Obs R)} {es : List Ev} (h : PreLog l)
    (he : Ev.epoch ∉ es) : PreLog (l ++ es.map .deliver) := by
  constructor
  · simp [h.1]
  · simp [h.2, he]

/-- Before the batch step: no epoch event anywhere, and if the caller owns the dispatcher only
E-step events are ever queued. -/
def EarlyLog (c : Cfg M P R) (s : St M R c.W) : Prop :=
  PreLog s.log ∧ Ev.epoch ∉ s.evq ∧ (c.owner = true → Ev.max ∉ s.evq)

/-- The log after the batch step. -/
def LateLog (c : Cfg M P R) (s : St M R c.W) (tail : List (Obs R)) : Prop :=
  c.owner = true → s.evq = [] ∧ ∃ A k, PreLog A ∧
    s.log = A ++ .batch :: (List.replicate k (.deliver .max) ++ tail)

def LogInv (c : Cfg M P R) (s : St M R c.W) : Prop :=
  match s.main with
  | .epoch => LateLog c s []
  | .ret => match c.kind with
    | .partialFit => LateLog c s [.deliver .epoch]
    | .transform => EarlyLog c s
  | _ => EarlyLog c s

/-! ### When everything has been consumed -/

theorem perm_range_of_count {l : List Nat} {n : Nat}
    (h : ∀ i, l.count i = if i < n then 1 else 0) : l.Perm (List.range n) := by
  rw [List.perm_iff_count]
  intro i
  rw [h i, count_range]

/-- A duplicate-free list of `n` numbers below `n` has them all. -/
theorem count_of_length {l : List Nat} {n : Nat} (h : ∀ i, l.count i ≤ if i < n then 1 else 0)
    (hl : n ≤ l.length) : l.Perm (List.range n) := by
  have hnd : l.Nodup := by
    rw [List.nodup_iff_count_le_one]
    intro i
    have := h i
    split at this <;> omega
  have hsub : l ⊆ List.range n := by
    intro i hi
    have h1 := List.count_pos_iff.2 hi
    have h2 := h i
    rw [List.mem_range]
    by_contra hc
    rw [if_neg hc] at h2
    omega
  exact (hnd.subperm hsub).perm_of_length_le (by simpa using hl)

theorem consumed_perm_of_len {c : Cfg M P R} {m : M} {s : St M R c.W} (h : Reachable c m s)
    (hl : (consumed s.log).length = c.n) :
    ((consumed s.log).map Prod.fst).Perm (List.range c.n) := by
  apply count_of_length
  · intro i
    have := inv_tok s h i
    omega
  · simp [hl]

/-- Once all results are consumed no document is left anywhere else. -/
theorem nothing_left {c : Cfg M P R} {m : M} {s : St M R c.W} (h : Reachable c m s)
    (hl : (consumed s.log).length = c.n) (i : Nat) :
    s.qin.count i = 0 ∧ (∑ w, wpre i (s.ws w)) = 0 ∧ (∑ w, wpost i (s.ws w)) = 0 ∧
      (s.qout.map Prod.snd).count i = 0 ∧ mtok c.kind i s.main = 0 := by
  have h1 := inv_tok s h i
  have h2 := (consumed_perm_of_len h hl).count_eq i
  rw [count_range] at h2
  omega

theorem eq_nil_of_count {α : Type} [BEq α] [LawfulBEq α] {l : List α} (h : ∀ a, l.count a = 0) :
    l = [] := by
  apply List.eq_nil_iff_forall_not_mem.2
  intro a ha
  have := List.count_pos_iff.2 ha
  have := h a
  omega

theorem queues_empty {c : Cfg M P R} {m : M} {s : St M R c.W} (h : Reachable c m s)
    (hl : (consumed s.log).length = c.n) : s.qin = [] ∧ s.qout = [] := by
  refine ⟨eq_nil_of_count fun i => (nothing_left h hl i).1, ?_⟩
  have := eq_nil_of_count fun i => (nothing_left h hl i).2.2.2.1
  simpa using this

/-- After the loop, no E-step event is queued any more. -/
theorem no_exp_queued {c : Cfg M P R} {m : M} {s : St M R c.W} (h : Reachable c m s)
    (hl : (consumed s.log).length = c.n) (hm : ∀ i, mev c.kind i s.main = 0) (i : Nat) :
    Ev.exp i ∉ s.evq := by
  have h1 := inv_evloc s h i
  have h2 := nothing_left h hl i
  intro hmem
  have h3 := List.count_pos_iff.2 hmem
  have h4 := hm i
  omega

/-- After the loop, every document's E-step event has been delivered exactly once. -/
theorem exp_delivered {c : Cfg M P R} {m : M} {s : St M R c.W} (h : Reachable c m s)
    (hl : (consumed s.log).length = c.n) (hm : ∀ i, mev c.kind i s.main = 0) (i : Nat) :
    (delivered s.log).count (.exp i) = if i < c.n then 1 else 0 := by
  have h1 := inv_ev s h i
  have h2 := nothing_left h hl i
  have h3 := List.count_eq_zero.2 (no_exp_queued h hl hm i)
  rw [List.count_append] at h1
  omega

theorem EarlyLog.consume {c : Cfg M P R} {s : St M R c.W} (h : EarlyLog c s) (i : Nat) (r : R)
    (pc : MPc R) : EarlyLog c { consume c s i r with main := pc } := by
  obtain ⟨⟨hp1, hp2⟩, he, hx⟩ := h
  obtain ⟨es, h1, h2, h3⟩ := consume_evs c s i r
  have hne : Ev.epoch ∉ es ++ (Pool.consume c s i r).evq := by
    rw [h2]; simp [he, List.mem_replicate]
  rw [List.mem_append, not_or] at hne
  refine ⟨⟨?_, ?_⟩, hne.2, ?_⟩
  · simp [h1, hp1]
  · simp [h1, hp2, hne.1]
  · intro ho
    by_cases hz : (c.docStep i r s.model).2 = 0
    · rw [hz] at h2
      simp only [List.replicate_zero, List.append_nil] at h2
      intro hmem
      apply hx ho
      rw [← h2]
      exact List.mem_append_right _ hmem
    · simp [h3 ho hz]

theorem EarlyLog.flush {c : Cfg M P R} {s : St M R c.W} (h : EarlyLog c s)
    (pc : MPc R) : EarlyLog c { flush s with main := pc } := by
  obtain ⟨⟨hp1, hp2⟩, he, hx⟩ := h
  refine ⟨⟨?_, ?_⟩, by simp, by simp⟩
  · simp [hp1]
  · simp [hp2, he]

theorem emitM_owner {c : Cfg M P R} (ho : c.owner = true) (s : St M R c.W) (hq : s.evq = [])
    (k : Nat) : (emitM c s k).evq = [] ∧
      (emitM c s k).log = s.log ++ List.replicate k (.deliver .max) := by
  induction k generalizing s with
  | zero => simp [emitM, hq]
  | succ k ih =>
    have hd : dispatch c s .max = { s with evq := [], log := s.log ++ [.deliver .max] } := by
      simp [dispatch, ho, Pool.flush, hq]
    obtain ⟨h1, h2⟩ := ih (dispatch c s .max) (by simp [hd])
    refine ⟨h1, ?_⟩
    rw [emitM, h2, hd]
    simp [List.replicate_succ]

theorem inv_log {c : Cfg M P R} {m : M} : ∀ s, Reachable c m s → LogInv c s := by
  apply reachable_induct
  · simp [LogInv, EarlyLog, PreLog, init, start, Left.empty]
  · intro s a s' hr hI ht
    cases ht with
    | work j i' h =>
      have hb := inv_born s hr
      have key : EarlyLog c s → EarlyLog c
          { s with ws := setW s.ws j (.push i' (c.eval (c.params s.model) i')),
                   evq := s.evq ++ [.exp i'] } := by
        rintro ⟨h1, h2, h3⟩
        exact ⟨h1, by simp [h2], fun ho => by simp [h3 ho]⟩
      cases hm : s.main <;> simp only [hm, LogInv, BornP] at hI hb ⊢
      case epoch => have := hb j; simp [h] at this
      case ret => have := hb j; simp [h] at this
      all_goals exact hm ▸ key hI
    | notify j h =>
      cases hm : s.main <;> simp only [hm, LogInv, wake] at hI ⊢ <;> exact hI
    | spawn j hj h => simp only [h, LogInv] at hI ⊢; exact hI
    | spawned j hj h => simp only [h, LogInv] at hI ⊢; exact hI
    | wait k hk h hq => simp only [h, LogInv] at hI ⊢; exact hI
    | extract k i' r q hk h hq => simp only [h, LogInv] at hI ⊢; exact hI
    | loopEnd k hk h => simp only [h, LogInv] at hI ⊢; exact hI
    | pfProcess k i' r hk h =>
      simp only [h, LogInv] at hI ⊢; exact hI.flush _
    | trConsume k i' r hk h => simp only [h, LogInv] at hI ⊢; exact hI.consume i' r _
    | pfConsume k i' r hk h => simp only [h, LogInv] at hI ⊢; exact hI.consume i' r _
    | trProcess k i' r hk h => simp only [h, LogInv] at hI ⊢; exact hI.flush _
    | join j hj h hd => simp only [h, LogInv] at hI ⊢; exact hI
    | pfJoined j hj hk h => simp only [h, LogInv] at hI ⊢; exact hI
    | trJoined j hj hk h => simp only [h, hk, LogInv] at hI ⊢; exact hI
    | post h =>
      have hn := no_exp_queued hr (by simpa [h, CntP] using inv_cnt s hr) (by simp [h])
      simp only [h, LogInv] at hI ⊢
      intro ho
      have hq : s.evq = [] := by
        apply List.eq_nil_iff_forall_not_mem.2
        intro e he
        cases e with
        | exp i => exact hn i he
        | max => exact hI.2.2 ho he
        | epoch => exact hI.2.1 he
      obtain ⟨h1, h2⟩ := emitM_owner ho
        { s with model := (c.batch s.model).1, log := s.log ++ [.batch] } hq (c.batch s.model).2
      refine ⟨by rw [h] at h1; exact h1, s.log, (c.batch s.model).2, hI.1, ?_⟩
      rw [h] at h2; simpa using h2
    | epoch h =>
      have hk := inv_model s hr
      simp only [h, LogInv, ModelP] at hI hk ⊢
      rw [hk.1]
      intro ho
      obtain ⟨hq, A, k, hA, hl⟩ := hI ho
      refine ⟨by simp [dispatch, ho], A, k, hA, ?_⟩
      simp [dispatch, ho, hq, hl]
    | spurious k h => simp only [h, LogInv] at hI ⊢; exact hI
    | _ => exact hI

/-- When the owner's call is past the loop nothing is queued in the dispatcher. -/
theorem evq_empty {c : Cfg M P R} {m : M} {s : St M R c.W} (hr : Reachable c m s)
    (ho : c.owner = true) (h : s.main = .ret) : s.evq = [] := by
  have hn := no_exp_queued hr (by simpa [h, CntP] using inv_cnt s hr) (by simp [h])
  have hI := inv_log s hr
  simp only [h, LogInv] at hI
  split at hI
  · exact (hI ho).1
  · apply List.eq_nil_iff_forall_not_mem.2
    intro e he
    cases e with
    | exp i => exact hn i he
    | max => exact hI.2.2 ho he
    | epoch => exact hI.2.1 he

/-! ### Progress -/

theorem worker_enabled {c : Cfg M P R} (s : St M R c.W) (j : Fin c.W) (h1 : s.ws j ≠ .unborn)
    (h2 : s.ws j ≠ .done) : ∃ s', step c s (.worker j) = some s' := by
  simp only [step, j.2, dite_true, Fin.eta, workerStep]
  cases h : s.ws j with
  | unborn => exact absurd h h1
  | done => exact absurd h h2
  | fetch => cases s.qin <;> exact ⟨_, rfl⟩
  | work i => exact ⟨_, rfl⟩
  | push i r => exact ⟨_, rfl⟩
  | notify => exact ⟨_, rfl⟩

theorem progress {c : Cfg M P R} {m : M} {s : St M R c.W} (hr : Reachable c m s)
    (hW : 0 < c.W ∨ c.n = 0) (hret : s.main ≠ .ret) :
    ∃ a, a ≠ .spurious ∧ ∃ s', step c s a = some s' := by
  have hb := inv_born s hr
  have hc := inv_cnt s hr
  have mainOk : ∀ s', mainStep c s = some s' → ∃ a, a ≠ .spurious ∧ ∃ s', step c s a = some s' :=
    fun s' h => ⟨.main, by simp, s', h⟩
  cases h : s.main with
  | spawn j =>
    by_cases hj : j < c.W
    · exact mainOk _ (by simp only [mainStep, h, hj, dite_true]; rfl)
    · exact mainOk _ (by simp only [mainStep, h, hj, dite_false]; rfl)
  | loop k =>
    by_cases hk : k < c.n
    · cases hq : s.qout with
      | nil => exact mainOk _ (by simp only [mainStep, h, hk, if_true, hq]; rfl)
      | cons x q => exact mainOk _ (by simp only [mainStep, h, hk, if_true, hq]; rfl)
    · exact mainOk _ (by simp only [mainStep, h, hk, if_false]; rfl)
  | got k i r =>
    cases hk : c.kind <;> exact mainOk _ (by simp only [mainStep, h, hk]; rfl)
  | mid k i r =>
    cases hk : c.kind <;> exact mainOk _ (by simp only [mainStep, h, hk]; rfl)
  | post => exact mainOk _ (by simp only [mainStep, h]; rfl)
  | epoch => exact mainOk _ (by simp only [mainStep, h]; rfl)
  | ret => exact absurd h hret
  | join j =>
    simp only [h, BornP] at hb
    by_cases hj : j < c.W
    · by_cases hd : s.ws ⟨j, hj⟩ = .done
      · exact mainOk _ (by simp only [mainStep, h, hj, dite_true, hd]; rfl)
      · obtain ⟨s', hs'⟩ := worker_enabled s ⟨j, hj⟩ (hb.2.1 _) hd
        exact ⟨.worker j, by simp, s', hs'⟩
    · cases hk : c.kind <;> exact mainOk _ (by simp only [mainStep, h, hj, dite_false, hk]; rfl)
  | waiting k =>
    simp only [h, BornP, CntP] at hb hc
    by_cases hall : ∀ w, s.ws w = .done
    · exfalso
      have hW' : 0 < c.W := by omega
      have hqin := inv_done s hr ⟨⟨0, hW'⟩, hall _⟩
      have hqout : s.qout = [] := by
        by_contra hne
        obtain ⟨w, hw⟩ := inv_wake s hr k h hne
        rw [hall w] at hw
        cases hw
      have hcount : ∀ i, ((consumed s.log).map Prod.fst).count i = if i < c.n then 1 else 0 := by
        intro i
        have := inv_tok s hr i
        simpa [hqin, hqout, hall, h] using this
      have := (perm_range_of_count hcount).length_eq
      simp at this
      omega
    · push Not at hall
      obtain ⟨w, hw⟩ := hall
      obtain ⟨s', hs'⟩ := worker_enabled s w (hb w) hw
      exact ⟨.worker w, by simp, s', hs'⟩

/-! ### Termination -/

def wweight : WPc R → Nat
  | .unborn => 2
  | .fetch => 1
  | .work _ => 5
  | .push _ _ => 4
  | .notify => 3
  | .done => 0

@[simp] theorem wweight_unborn : wweight (R := R) .unborn = 2 := rfl
@[simp] theorem wweight_fetch : wweight (R := R) .fetch = 1 := rfl
@[simp] theorem wweight_work (i : Nat) : wweight (R := R) (.work i) = 5 := rfl
@[simp] theorem wweight_push (i : Nat) (r : R) : wweight (R := R) (.push i r) = 4 := rfl
@[simp] theorem wweight_notify : wweight (R := R) .notify = 3 := rfl
@[simp] theorem wweight_done : wweight (R := R) .done = 0 := rfl

def mweight (c : Cfg M P R) : MPc R → Nat
  | .spawn j => (c.W - j) + (4 * c.n + c.W + 6)
  | .loop k => 4 * (c.n - k) + (c.W + 5)
  | .waiting k => 4 * (c.n - k) + (c.W + 4)
  | .got k _ _ => 4 * (c.n - k) + (c.W + 3)
  | .mid k _ _ => 4 * (c.n - k) + (c.W + 2)
  | .join j => (c.W - j) + 3
  | .post => 2
  | .epoch => 1
  | .ret => 0

/-- Bound on the number of steps still to come. -/
def weight (c : Cfg M P R) (s : St M R c.W) : Nat :=
  5 * s.qin.length + (∑ w, wweight (s.ws w)) + mweight c s.main

theorem weight_step {c : Cfg M P R} {m : M} {s s' : St M R c.W} {a : Act} (hr : Reachable c m s)
    (h : step c s a = some s') :
    weight c s' + (if a = .spurious then 0 else 1) ≤ weight c s + (if a = .spurious then 1 else 0) := by
  have hb := inv_born s hr
  have hc := inv_cnt s hr
  have ht := trans_of_step h
  clear h
  unfold weight
  cases ht with
  | fetchDone j h hq =>
    have h1 := sum_setW wweight s.ws j .done
    rw [h] at h1; simp at h1 ⊢; omega
  | fetchJob j i' q h hq =>
    have h1 := sum_setW wweight s.ws j (.work i')
    rw [h] at h1; simp [hq] at h1 ⊢; omega
  | work j i' h =>
    have h1 := sum_setW wweight s.ws j (.push i' (c.eval (c.params s.model) i'))
    rw [h] at h1; simp at h1 ⊢; omega
  | push j i' r h =>
    have h1 := sum_setW wweight s.ws j .notify
    rw [h] at h1; simp at h1 ⊢; omega
  | notify j h =>
    have h1 := sum_setW wweight s.ws j .fetch
    rw [h] at h1
    have h2 : mweight c (wake s.main) ≤ mweight c s.main + 1 := by
      cases s.main <;> simp [wake, mweight]; omega
    simp at h1 ⊢; omega
  | spawn j hj h =>
    have h1 := sum_setW wweight s.ws ⟨j, hj⟩ .fetch
    simp only [h, BornP] at hb
    rw [(hb.2 ⟨j, hj⟩).1 (Nat.le_refl _)] at h1
    simp [h, mweight] at h1 ⊢; omega
  | spawned j hj h => simp [h, mweight]; omega
  | wait k hk h hq => simp [h, mweight]; omega
  | extract k i' r q hk h hq => simp [h, mweight]; omega
  | loopEnd k hk h => simp [h, mweight]; omega
  | pfProcess k i' r hk h => simp [h, mweight]; omega
  | trConsume k i' r hk h => simp [h, mweight]; omega
  | pfConsume k i' r hk h => simp [h, mweight, CntP] at hc ⊢; omega
  | trProcess k i' r hk h => simp [h, mweight, CntP] at hc ⊢; omega
  | join j hj h hd => simp [h, mweight]; omega
  | pfJoined j hj hk h => simp [h, mweight]; omega
  | trJoined j hj hk h => simp [h, mweight]
  | post h => simp [h, mweight]
  | epoch h => simp [h, mweight]
  | spurious k h => simp [h, mweight]; omega

theorem weight_run {c : Cfg M P R} {m : M} (as : List Act) :
    ∀ s s' : St M R c.W, Reachable c m s → run c s as = some s' →
      weight c s' + as.length ≤ weight c s + 2 * as.count .spurious := by
  induction as with
  | nil => intro s s' _ h; cases h; simp
  | cons a as ih =>
    intro s s' hr h
    simp only [run] at h
    split at h
    · cases h
    · rename_i s1 h1
      have h2 := ih s1 s' (hr.step h1) h
      have h3 := weight_step hr h1
      rw [List.count_cons]
      simp only [List.length_cons, beq_iff_eq]
      split at h3 <;> split <;> omega

theorem weight_init (c : Cfg M P R) (m : M) : weight c (init c m) = 9 * c.n + 4 * c.W + 6 := by
  simp [weight, init, start, Left.empty, wweight, mweight]
  omega

end Verif.Pool
