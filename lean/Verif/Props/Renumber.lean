import Verif.Props.Continue
import Verif.Lemmas.Topics
import Verif.Props.Classes
import Verif.Props.Symmetry

/-! Property C116: training with renumbered topics and a renumbered vocabulary.

Topic `k` of the new numbering is topic `σ k` of the old one, and word `n` is word `τ n`. -/

namespace Verif.MStep

open MathUtils EStep Optim Finset

variable {K V C : ℕ} (σ : Equiv.Perm (Fin K)) (τ : Equiv.Perm (Fin V))

/-- A matrix of topics over words, renumbered. -/
def both {A : Type} (m : Mat K V A) : Mat K V A := fun k n => m (σ k) (τ n)

/-- The new numbering of the words of a document. -/
def Doc.words' (d : Doc V) : Doc V := { d with words := along τ d.words }

/-- Variational parameters, renumbered. -/
def VP.both (r : VP K V) : VP K V := ⟨MStep.both σ τ r.phi, along σ r.gamma⟩

/-- What `m_step` assigns to `beta`, renumbered. -/
def Beta.both : Beta K V → Beta K V
  | .noRows => .noRows
  | .matrix m => .matrix (MStep.both σ τ m)

/-- The members of the fast supervised step. -/
def FastState.both (s : FastState K V) : FastState K V :=
  { s with b := s.b.map (MStep.both σ τ), zbar := s.zbar.map (Option.map (along σ)) }

/-- The members of the supervised step. -/
def SupState.both (s : SupState K V) : SupState K V :=
  { s with b := s.b.map (MStep.both σ τ), zbar := s.zbar.map (Option.map (Option.map (along σ)))
           var := s.var.map (Option.map (Option.map (alongBoth σ))) }

/-- The members of the multinomial and correspondence steps. -/
def MultState.both (s : MultState K V C) : MultState K V C :=
  { s with bufs := s.bufs.map fun p => (MStep.both σ τ p.1, rows σ p.2) }

/-- The members of the online step and the model it changes. -/
def OnlineState.both (s : OnlineState K V C) : OnlineState K V C where
  bufs := s.bufs.map fun p => { p with b := MStep.both σ τ p.b, zbar := p.zbar.map (Option.map (along σ))
                                       velocity := p.velocity.map (rows σ) }
  seen := s.seen
  beta := s.beta.map (MStep.both σ τ)
  eta := s.eta.map (rows σ)

variable {σ τ}

theorem sum_both (m : Mat K V ℝ) (k : Fin K) : ∑ n, both σ τ m k n = ∑ n, m (σ k) n :=
  Equiv.sum_comp τ fun n => m (σ k) n

theorem uDoc_both (X : Vec V ℕ) (phi : Mat K V ℝ) (b : Buf K V) :
    uDoc (along τ X) (both σ τ phi) (b.map (both σ τ)) = (uDoc X phi b).map (both σ τ) := by
  cases b <;> rfl

theorem uM_both (b : Buf K V) : uM (b.map (both σ τ)) = ((uM b).1.both σ τ, (uM b).2.map (both σ τ)) := by
  cases b with
  | none => rfl
  | some b =>
    simp only [uM, Option.map_some, uBeta, sum_both]
    rfl

theorem fastZbar_along (gamma alpha : Vec K ℝ) :
    fastZbar (along σ gamma) (along σ alpha) = along σ (fastZbar gamma alpha) := by
  have : ∑ k, (along σ gamma k - along σ alpha k) = ∑ k, (gamma k - alpha k) :=
    Equiv.sum_comp σ fun k => gamma k - alpha k
  simp only [fastZbar, this]
  split <;> rfl

theorem fastDoc_both (alpha : Vec K ℝ) (d : Doc V) (r : VP K V) (s : FastState K V) :
    fastDoc (along σ alpha) (d.words' τ) (VP.both σ τ r) (s.both σ τ) =
      (fastDoc alpha d r s).map (FastState.both σ τ) := by
  simp only [fastDoc, FastState.both, Doc.words', VP.both, resize_map, List.length_map, uDoc_both, fastZbar_along,
    ← apply_ite (List.map (Option.map (along (A := ℝ) σ))), setAt_map, Option.map_map, Option.map_bind,
    Function.comp_def]

theorem semiDoc_both (alpha : Vec K ℝ) (d : Doc V) (r : VP K V) (s : FastState K V) :
    semiDoc (along σ alpha) (d.words' τ) (VP.both σ τ r) (s.both σ τ) =
      (semiDoc alpha d r s).map (FastState.both σ τ) := by
  unfold semiDoc
  rw [fastDoc_both]
  simp only [Doc.words']
  by_cases h : d.cls < 0
  · simp only [h, if_true, FastState.both, VP.both, uDoc_both, Option.map_some]
  · simp only [h, if_false]

theorem supZbar_along (N : ℕ) (gamma alpha : Vec K ℝ) :
    supZbar N (along σ gamma) (along σ alpha) = (supZbar N gamma alpha).map (along σ) := by
  unfold supZbar
  split <;> rfl

theorem supVar_both (N : ℕ) (X : Vec V ℕ) (phi : Mat K V ℝ) :
    supVar N (along τ X) (both σ τ phi) = (supVar N X phi).map (alongBoth σ) := by
  unfold supVar
  split
  · rfl
  · rw [Option.map_some]
    congr 1
    funext k l
    simp only [alongBoth]
    congr 1
    exact Equiv.sum_comp τ fun n => scaled phi X (σ k) n * scaled phi X (σ l) n

theorem supDoc_both (alpha : Vec K ℝ) (d : Doc V) (r : VP K V) (s : SupState K V) :
    supDoc (along σ alpha) (d.words' τ) (VP.both σ τ r) (s.both σ τ) =
      (supDoc alpha d r s).map (SupState.both σ τ) := by
  have hN : numWords (along τ d.words) = numWords d.words := numWords_words τ d.words
  simp only [supDoc, SupState.both, Doc.words', VP.both, resize_map, List.length_map, uDoc_both, hN, supZbar_along,
    supVar_both, ← apply_ite (List.map (Option.map (Option.map (along (A := ℝ) σ)))),
    ← apply_ite (List.map (Option.map (Option.map (alongBoth σ)))), setAt_map]
  split
  · rfl
  · cases setAt (if s.zbar.length ≤ s.docs then resize s.y (s.docs + 1) else s.y) s.docs d.cls with
    | none => rfl
    | some y =>
      cases setAt (if s.zbar.length ≤ s.docs then resize s.zbar (s.docs + 1) else s.zbar) s.docs
        (supZbar (numWords d.words) r.gamma alpha) with
      | none => rfl
      | some z =>
        simp only [Option.bind_some, Option.map_some, Option.map_map]
        rfl

theorem expectedLog_along (sum ey : Vec K ℝ) : expectedLog (along σ sum) (along σ ey) = expectedLog sum ey := by
  have h : mapOpt logc (along σ ey) = (mapOpt logc ey).map (along σ) := mapOpt_perm σ logc ey
  simp only [expectedLog]
  rw [h, Option.map_map]
  congr 1
  funext le
  exact Equiv.sum_comp σ fun k => sum k * le k

theorem multAdd_both (eta : Mat K C ℝ) (cls : ℤ) (t : Mat K V ℝ) (s : MultState K V C) :
    multAdd (rows σ eta) cls (both σ τ t) (s.both σ τ) = (multAdd eta cls t s).map (MultState.both σ τ) := by
  have hcol : colAt (rows σ eta) cls = (colAt eta cls).map (along σ) := colAt_rows σ eta cls
  have he : ∀ ey : Vec K ℝ, expectedLog (fun k => ∑ n, t (σ k) n) (along σ ey) =
      expectedLog (fun k => ∑ n, t k n) ey := fun ey => expectedLog_along (fun k => ∑ n, t k n) ey
  unfold multAdd
  rw [hcol, Option.map_map, Option.map_map]
  congr 1
  funext ey
  obtain ⟨bufs, logpy⟩ := s
  cases bufs with
  | none =>
    simp only [MultState.both, Option.map_none, Function.comp, Option.map_some, sum_both, he]
    rfl
  | some p =>
    simp only [MultState.both, Function.comp, Option.map_some, sum_both, he]
    rfl

theorem normalizeRows_both (m : Mat K V ℝ) : normalizeRows (both σ τ m) = both σ τ (normalizeRows m) := by
  funext k n
  have hs : ∑ j, both σ τ m k j = ∑ j, m (σ k) j := sum_both m k
  change _ = normalizeRows m (σ k) (τ n)
  rw [normalizeRows_apply, normalizeRows_apply]
  by_cases z : ∑ j, m (σ k) j = 0
  · rw [if_pos z, if_pos (hs.trans z)]
    rfl
  · rw [if_neg z, if_neg fun e => z (hs.symm.trans e), hs]
    rfl

theorem normalizeRows_rows (m : Mat K C ℝ) : normalizeRows (rows σ m) = rows σ (normalizeRows m) := by
  funext k n
  change _ = normalizeRows m (σ k) n
  rw [normalizeRows_apply, normalizeRows_apply]
  rfl

/-- **C116**, multinomial and correspondence steps. -/
theorem C116_multinomial_m (mu : ℝ) (eta : Mat K C ℝ) (d : Doc V) (phi : Mat K V ℝ) (tau : Vec V ℝ)
    (s : MultState K V C) :
    multDoc (rows σ eta) (d.words' τ) (both σ τ phi) (s.both σ τ) =
      (multDoc eta d phi s).map (MultState.both σ τ) ∧
    corrDoc (rows σ eta) (d.words' τ) (both σ τ phi) (along τ tau) (s.both σ τ) =
      (corrDoc eta d phi tau s).map (MultState.both σ τ) ∧
    multM mu (s.both σ τ) = (⟨(multM mu s).1.params.map fun p => (both σ τ p.1, rows σ p.2), (multM mu s).1.event⟩,
      (multM mu s).2.both σ τ) := by
  refine ⟨multAdd_both eta d.cls (scaled phi d.words) s,
    multAdd_both eta d.cls (fun k n => phi k n * (d.words n * tau n)) s, ?_⟩
  obtain ⟨bufs, logpy⟩ := s
  cases bufs with
  | none => rfl
  | some p =>
    have e := normalizeRows_rows (σ := σ) fun k c => p.2 k c + mu - 1
    simp only [multM, MultState.both, Option.map_some, normalizeRows_both]
    rw [show (fun k c => rows σ p.2 k c + mu - 1) = rows σ fun k c => p.2 k c + mu - 1 from rfl, e]
    rfl

/-- **C116**, `m_step` of the fast supervised and semi supervised steps. -/
theorem C116_fast_m (cfg : SupCfg) (eta : Mat K C ℝ) (s : FastState K V) :
    fastM cfg (rows σ eta) (s.both σ τ) =
      (fastM cfg eta s).map fun o => (⟨o.1.beta.both σ τ, rows σ o.1.eta, o.1.events⟩, o.2.both σ τ) := by
  simp only [fastM, FastState.both, resize_map, readAll_map, uM_both]
  cases readAll (resize s.zbar s.docs) with
  | none => rfl
  | some zs =>
    cases readAll (resize s.y s.docs) with
    | none => rfl
    | some ys =>
      have h := congrArg (Option.map fun r : Mat K C ℝ × List ℝ =>
        ((⟨(uM s.b).1.both σ τ, r.1, r.2.map some⟩ : MOut K V C), (⟨(uM s.b).2.map (both σ τ), 0,
          (resize s.zbar s.docs).map (Option.map (along σ)), resize s.y s.docs⟩ : FastState K V)))
        (logistic_descend_rows (σ := σ) zs ys cfg eta)
      simp only [Option.map_bind, Option.map_map, Function.comp_def] at h
      simp only [Option.map_some, Option.bind_some, Option.map_bind, Option.map_map, Function.comp_def]
      exact h

/-- **C116**, `m_step` of the supervised step. -/
theorem C116_supervised_m (cfg : SupCfg) (eta : Mat K C ℝ) (s : SupState K V) :
    supM cfg (rows σ eta) (s.both σ τ) =
      (supM cfg eta s).map fun o => (⟨o.1.beta.both σ τ, rows σ o.1.eta, o.1.events⟩, o.2.both σ τ) := by
  simp only [supM, SupState.both, resize_map, readAll_map, uM_both]
  cases readAll (resize s.zbar s.docs) with
  | none => rfl
  | some zs =>
    cases readAll (resize s.var s.docs) with
    | none => rfl
    | some vs =>
      cases readAll (resize s.y s.docs) with
      | none => rfl
      | some ys =>
        simp only [Option.map_some, Option.bind_some, supDescend_rows, Option.map_map]
        rfl

/-! ### The online step -/

theorem onlineEta_rows (cfg : OnlineCfg C) (z : List (Option (Vec K ℝ))) (y : List ℤ)
    (vel eta : Option (Mat K C ℝ)) :
    onlineEta cfg (z.map (Option.map (along σ))) y (vel.map (rows σ)) (eta.map (rows σ)) =
      (onlineEta cfg z y vel eta).map fun r => (r.1.map (rows σ), r.2.1.map (rows σ), r.2.2) := by
  unfold onlineEta
  rw [readAll_map]
  cases readAll z with
  | none =>
    simp only [Option.map_none]
    split <;> rfl
  | some zs =>
    cases vel with
    | none =>
      simp only [Option.map_none, Option.map_some]
      split <;> rfl
    | some v =>
      cases eta with
      | none =>
        simp only [Option.map_none, Option.map_some]
        split <;> rfl
      | some e =>
        simp only [Option.map_some, logisticDefault]
        cases defaultWeights y with
        | none => rfl
        | some Cy =>
          have hr := logistic_rows (σ := σ) (C := C) Cy y zs cfg.penalty
          simp only [Option.map_some, Option.bind_some, hr.gradient]
          cases (logistic C zs y Cy cfg.penalty).gradient e with
          | none => rfl
          | some g =>
            simp only [Option.map_some, Option.bind_some]
            have hv' : (logistic C (zs.map (along σ)) y Cy cfg.penalty).value
                (fun k c => rows σ e k c + (cfg.momentum * rows σ v k c - cfg.rate * rows σ g k c)) =
                (logistic C zs y Cy cfg.penalty).value
                  fun k c => e k c + (cfg.momentum * v k c - cfg.rate * g k c) :=
              hr.value fun k c => e k c + (cfg.momentum * v k c - cfg.rate * g k c)
            rw [hv', Option.map_map]
            rfl

theorem onlineBeta_both (w : ℝ) (beta b : Mat K V ℝ) :
    onlineBeta w (both σ τ beta) (both σ τ b) = (onlineBeta w beta b).map (both σ τ) := by
  unfold onlineBeta
  have h : (∃ k, (∑ n, both σ τ b k n) = 0) ↔ ∃ k, (∑ n, b k n) = 0 := by
    simp only [sum_both]
    exact ⟨fun ⟨k, h⟩ => ⟨σ k, h⟩, fun ⟨k, h⟩ => ⟨σ.symm k, by simpa using h⟩⟩
  by_cases h' : ∃ k, (∑ n, b k n) = 0
  · rw [if_pos h', if_pos (h.2 h')]
    rfl
  · rw [if_neg h', if_neg fun e => h' (h.1 e)]
    simp only [sum_both]
    rfl

theorem onlineZbar_along (gamma alpha : Vec K ℝ) :
    onlineZbar (along σ gamma) (along σ alpha) = (onlineZbar gamma alpha).map (along σ) := by
  have : ∑ k, (along σ gamma k - along σ alpha k) = ∑ k, (gamma k - alpha k) :=
    Equiv.sum_comp σ fun k => gamma k - alpha k
  simp only [onlineZbar, this]
  split <;> rfl

theorem onlineM_both (cfg : OnlineCfg C) (s : OnlineState K V C) :
    onlineM cfg (s.both σ τ) = (onlineM cfg s).map fun r => (r.1.both σ τ, r.2) := by
  unfold onlineM
  obtain ⟨bufs, seen, beta, eta⟩ := s
  simp only [OnlineState.both]
  by_cases h : seen < cfg.minibatch
  · simp only [h, if_true, Option.map_some]
  · simp only [h, if_false]
    cases bufs with
    | none => rfl
    | some p =>
      simp only [Option.map_some, onlineEta_rows, Option.map_map]
      congr 1
      funext r
      cases beta with
      | none => rfl
      | some be =>
        simp only [Function.comp, Option.map_some, Option.bind_some, onlineBeta_both]

theorem onlineDoc_both (cfg : OnlineCfg C) (alpha : Vec K ℝ) (d : Doc V) (r : VP K V) (s : OnlineState K V C) :
    onlineDoc cfg (along σ alpha) (d.words' τ) (VP.both σ τ r) (s.both σ τ) =
      (onlineDoc cfg alpha d r s).map fun r => (r.1.both σ τ, r.2) := by
  have hp : (s.both σ τ).bufs.getD (OnlineBufs.init cfg) =
      { s.bufs.getD (OnlineBufs.init cfg) with
        b := both σ τ (s.bufs.getD (OnlineBufs.init cfg)).b
        zbar := (s.bufs.getD (OnlineBufs.init cfg)).zbar.map (Option.map (along σ))
        velocity := (s.bufs.getD (OnlineBufs.init cfg)).velocity.map (rows σ) } := by
    obtain ⟨bufs, seen, beta, eta⟩ := s
    cases bufs with
    | some p => rfl
    | none =>
      simp only [OnlineState.both, Option.map_none, Option.getD_none, OnlineBufs.init, List.map_replicate,
        Option.map_some]
      rfl
  unfold onlineDoc
  rw [hp]
  simp only [List.length_map]
  have hs : (s.both σ τ).seen = s.seen := rfl
  rw [hs]
  by_cases h1 : s.seen < (s.bufs.getD (OnlineBufs.init cfg)).zbar.length ∧
      s.seen < (s.bufs.getD (OnlineBufs.init cfg)).y.length
  · rw [if_pos h1, if_pos h1]
    have hst : ({ s.both σ τ with
        bufs := some { s.bufs.getD (OnlineBufs.init cfg) with
          b := fun k n => both σ τ (s.bufs.getD (OnlineBufs.init cfg)).b k n +
            scaled (VP.both σ τ r).phi (d.words' τ).words k n
          zbar := ((s.bufs.getD (OnlineBufs.init cfg)).zbar.map (Option.map (along σ))).set s.seen
            (onlineZbar (VP.both σ τ r).gamma (along σ alpha))
          y := (s.bufs.getD (OnlineBufs.init cfg)).y.set s.seen (d.words' τ).cls
          velocity := (s.bufs.getD (OnlineBufs.init cfg)).velocity.map (rows σ) }
        seen := s.seen + 1 } : OnlineState K V C) =
      OnlineState.both σ τ { s with
        bufs := some { s.bufs.getD (OnlineBufs.init cfg) with
          b := fun k n => (s.bufs.getD (OnlineBufs.init cfg)).b k n + scaled r.phi d.words k n
          zbar := (s.bufs.getD (OnlineBufs.init cfg)).zbar.set s.seen (onlineZbar r.gamma alpha)
          y := (s.bufs.getD (OnlineBufs.init cfg)).y.set s.seen d.cls }
        seen := s.seen + 1 } := by
      simp only [OnlineState.both, VP.both, onlineZbar_along, Option.map_some, List.map_set]
      rfl
    rw [hst]
    by_cases h2 : cfg.minibatch ≤ s.seen + 1
    · rw [if_pos h2, if_pos h2, onlineM_both]
    · rw [if_neg h2, if_neg h2]
      rfl
  · rw [if_neg h1, if_neg h1]
    rfl

/-- A call with the document renumbered. -/
def bothCall (c : Call (DocArg K V) Unit) : Call (DocArg K V) Unit :=
  match c with
  | .doc a => .doc (along σ a.1, a.2.1.words' τ, VP.both σ τ a.2.2)
  | .step _ => .step ()

/-- **C116**, online step: after every history of calls the model, the velocity of `eta` and what is kept of the
unfinished minibatch are the renumbered ones, and the events are the same. -/
theorem C116_online (cfg : OnlineCfg C) (beta : Mat K V ℝ) (eta : Mat K C ℝ) (h : List (Call (DocArg K V) Unit)) :
    onlineHistory cfg (both σ τ beta) (rows σ eta) (h.map (bothCall (σ := σ) (τ := τ))) =
      (onlineHistory cfg beta eta h).map fun r => (r.1.both σ τ, r.2) := by
  induction h using List.reverseRecOn with
  | nil => rfl
  | append_singleton h c ih =>
    rw [List.map_append, List.map_singleton]
    simp only [onlineHistory] at ih ⊢
    rw [history_snoc, history_snoc, ih]
    cases history (fun (a : DocArg K V) (s : OnlineState K V C × List (Option ℝ)) =>
        (onlineDoc cfg a.1 a.2.1 a.2.2 s.1).map fun r => (r.1, s.2 ++ r.2))
        (fun (_ : Unit) s => (onlineM cfg s.1).map fun r => (r.1, s.2 ++ r.2))
        (⟨none, 0, some beta, some eta⟩, []) h with
    | none => rfl
    | some r =>
      cases c with
      | doc a =>
        simp only [Option.map_some, Option.bind_some, bothCall, onlineDoc_both, Option.map_map]
        rfl
      | step _ =>
        simp only [Option.map_some, Option.bind_some, bothCall, onlineM_both, Option.map_map]
        rfl

end Verif.MStep

namespace Verif.EStep

open MathUtils

variable {K V C : ℕ} {P : Prims} {cfg : Cfg}

theorem unsupervisedRun_words (τ : Equiv.Perm (Fin V)) (X : Vec V ℕ) (m : Model K V C) :
    unsupervisedRun P cfg (fun n => X (τ n)) (m.words τ) = (unsupervisedRun P cfg X m).map (VP.words τ) := by
  unfold unsupervisedRun
  have h0 : initial (fun n => X (τ n)) (m.words τ).alpha = (initial X m.alpha).words τ := initial_words τ X m.alpha
  rw [h0]
  exact loop_map (VP.words τ) (fun _ => rfl) (fun s => unsupervisedStep_words τ P X m s) _ _ _

theorem multinomialRun_words (τ : Equiv.Perm (Fin V)) (ew : ℝ) (X : Vec V ℕ) (y : ℤ) (m : Model K V C) :
    multinomialRun P cfg ew (fun n => X (τ n)) y (m.words τ) = (multinomialRun P cfg ew X y m).map (VP.words τ) := by
  unfold multinomialRun
  have h0 : initial (fun n => X (τ n)) (m.words τ).alpha = (initial X m.alpha).words τ := initial_words τ X m.alpha
  rw [h0]
  exact loop_map (VP.words τ) (fun _ => rfl) (fun s => multinomialStep_words τ P ew X y m s) _ _ _

theorem correspondenceRun_words (τ : Equiv.Perm (Fin V)) (X : Vec V ℕ) (y : ℤ) (m : Model K V C) :
    correspondenceRun P cfg (fun n => X (τ n)) y (m.words τ) = (correspondenceRun P cfg X y m).map (corWords τ) := by
  unfold correspondenceRun
  have h0 : initial (fun n => X (τ n)) (m.words τ).alpha = (initial X m.alpha).words τ := initial_words τ X m.alpha
  rw [h0]
  exact loop_map (corWords τ) (fun _ => rfl) (fun s => correspondenceStep_words τ P X y m s) _ _
    (initial X m.alpha, fun _ => 1 / (V : ℝ))

end Verif.EStep

namespace Verif.Decision

open MathUtils MStep EStep Optim

variable {K C D : ℕ} {σ : Equiv.Perm (Fin K)}

theorem ieee_add_right_comm (a b c : Ieee ℝ) : a + b + c = a + c + b := by
  change Ieee.add (Ieee.add a b) c = Ieee.add (Ieee.add a c) b
  cases a <;> cases b <;> cases c <;> simp [Ieee.add, add_right_comm]

/-- **C116**, `decision_function`: the scores, and with them the predictions, do not depend on the numbering of the
topics, not even where they are not finite. -/
theorem C116_scores (alpha : Vec K ℝ) (eta : Mat K C ℝ) (X : Mat K D ℝ) :
    decisionFunction (along σ alpha) (rows σ eta) (rows σ X) = decisionFunction alpha eta X := by
  funext c d
  have hs : ∑ j, (rows σ X j d - along σ alpha j) = ∑ j, (X j d - alpha j) :=
    Equiv.sum_comp σ fun j => X j d - alpha j
  have hz : expectedZ (along σ alpha) (fun k => rows σ X k d) = along σ (expectedZ alpha fun k => X k d) := by
    funext k
    simp only [expectedZ, hs]
    rfl
  have hp : ((List.finRange K).map σ).Perm (List.finRange K) := by
    rw [List.perm_ext_iff_of_nodup ((List.nodup_finRange K).map σ.injective) (List.nodup_finRange K)]
    intro a
    simp only [List.mem_finRange, iff_true]
    exact List.mem_map.2 ⟨σ.symm a, List.mem_finRange _, by simp⟩
  have : RightCommutative fun (a : Ieee ℝ) (k : Fin K) =>
      a + Ieee.fin (eta k c) * expectedZ alpha (fun k => X k d) k := ⟨fun a b c => ieee_add_right_comm _ _ _⟩
  have h2 := hp.foldl_eq (f := fun (a : Ieee ℝ) (k : Fin K) =>
      a + Ieee.fin (eta k c) * expectedZ alpha (fun k => X k d) k) (0 : Ieee ℝ)
  rw [List.foldl_map] at h2
  simp only [decisionFunction, score, hz]
  exact h2

end Verif.Decision

namespace Verif.Train

open MathUtils EStep MStep Optim Pool Finset

variable {K V C : ℕ} {T : Type} (σ : Equiv.Perm (Fin K)) (τ : Equiv.Perm (Fin V))

/-! ### Training -/

/-- Model parameters, renumbered. -/
def Params.both (q : Params K V C) : Params K V C :=
  ⟨along σ q.alpha, q.beta.both σ τ, rows σ q.eta⟩

/-- The same for the multinomial and correspondence models. -/
def bothMult (q : MultParams K V C) : MultParams K V C :=
  (along σ q.1, q.2.map fun p => (MStep.both σ τ p.1, rows σ p.2))

/-- **C116**, training with the unsupervised step, for every E step that only depends on the numbering by renumbered
results. -/
theorem C116_fit_unsupervised (corpus : ℕ → Doc V) (n : ℕ)
    (eval eval' : Params K V C × T → ℕ → VP K V) (next : T → T)
    (hE : ∀ q t i, i < n → eval' (q.both σ τ, t) i = VP.both σ τ (eval (q, t) i)) :
    FitsAlike (unsupervised corpus) (unsupervised fun i => (corpus i).words' τ) n eval eval' next
      none none (Params.both σ τ) := by
  intro q t W W' orders orders' m l logs m' l' logs' hlen ho ho' hc hc'
  refine Renames.fit (unsupervisedFree fun i => (corpus i).words' τ) (o := unsupervisedFree corpus)
    (Tr := VP.both σ τ) (Ts := Option.map (MStep.both σ τ)) (f := false) (f' := false) ⟨?_, hE, ?_⟩
    ⟨by simp [BufIs], by simp⟩ ⟨by simp [BufIs], by simp⟩ hlen ho ho' hc hc'
  · intro q i r s _
    exact congrArg some (uDoc_both (corpus i).words r.phi s)
  · intro q t s f _
    simp only [unsupervised, uM_both, Option.map_some]
    rfl

/-- **C116**, training with the fast supervised step. -/
theorem C116_fit_fast (cfg : SupCfg) (corpus : ℕ → Doc V) (n : ℕ)
    (eval eval' : Params K V C × T → ℕ → VP K V) (next : T → T)
    (hE : ∀ q t i, i < n → eval' (q.both σ τ, t) i = VP.both σ τ (eval (q, t) i)) :
    FitsAlike (fastSupervised cfg corpus) (fastSupervised cfg fun i => (corpus i).words' τ) n eval eval' next
      .init .init (Params.both σ τ) := by
  intro q t W W' orders orders' m l logs m' l' logs' hlen ho ho' hc hc'
  refine Renames.fit (fastFree cfg fun i => (corpus i).words' τ) (o := fastFree cfg corpus)
    (Tr := VP.both σ τ) (Ts := FastState.both σ τ) (f := false) (f' := false) ⟨?_, hE, ?_⟩
    ⟨FastIs.init, by simp [FastState.init]⟩
    ⟨FastIs.init, by simp [FastState.init, FastState.both]⟩ hlen ho ho' hc hc'
  · intro q i r s _
    exact fastDoc_both q.alpha (corpus i) r s
  · intro q t s f _
    simp only [fastSupervised, Params.both, C116_fast_m, Option.map_map]
    rfl

/-- **C116**, training with the semi supervised step. -/
theorem C116_fit_semi (cfg : SupCfg) (corpus : ℕ → Doc V) (n : ℕ)
    (eval eval' : Params K V C × T → ℕ → VP K V) (next : T → T)
    (hE : ∀ q t i, i < n → eval' (q.both σ τ, t) i = VP.both σ τ (eval (q, t) i)) :
    FitsAlike (semiSupervised cfg corpus) (semiSupervised cfg fun i => (corpus i).words' τ) n eval eval' next
      .init .init (Params.both σ τ) := by
  intro q t W W' orders orders' m l logs m' l' logs' hlen ho ho' hc hc'
  refine Renames.fit (semiFree cfg fun i => (corpus i).words' τ) (o := semiFree cfg corpus)
    (Tr := VP.both σ τ) (Ts := FastState.both σ τ) (f := false) (f' := false) ⟨?_, hE, ?_⟩
    ⟨FastIs.init, by simp [FastState.init]⟩
    ⟨FastIs.init, by simp [FastState.init, FastState.both]⟩ hlen ho ho' hc hc'
  · intro q i r s _
    exact semiDoc_both q.alpha (corpus i) r s
  · intro q t s f _
    simp only [semiSupervised, fastSupervised, Params.both, C116_fast_m, Option.map_map]
    rfl

/-- **C116**, training with the supervised step. -/
theorem C116_fit_supervised (cfg : SupCfg) (corpus : ℕ → Doc V) (n : ℕ)
    (eval eval' : Params K V C × T → ℕ → VP K V) (next : T → T)
    (hE : ∀ q t i, i < n → eval' (q.both σ τ, t) i = VP.both σ τ (eval (q, t) i)) :
    FitsAlike (supervised cfg corpus) (supervised cfg fun i => (corpus i).words' τ) n eval eval' next
      .init .init (Params.both σ τ) := by
  intro q t W W' orders orders' m l logs m' l' logs' hlen ho ho' hc hc'
  refine Renames.fit (supervisedFree cfg fun i => (corpus i).words' τ) (o := supervisedFree cfg corpus)
    (Tr := VP.both σ τ) (Ts := SupState.both σ τ) (f := false) (f' := false) ⟨?_, hE, ?_⟩
    ⟨SupIs.init, by simp [SupState.init]⟩
    ⟨SupIs.init, by simp [SupState.init, SupState.both]⟩ hlen ho ho' hc hc'
  · intro q i r s _
    exact supDoc_both q.alpha (corpus i) r s
  · intro q t s f _
    simp only [supervised, Params.both, C116_supervised_m, Option.map_map]
    rfl

/-- **C116**, training with the multinomial step. -/
theorem C116_fit_multinomial (mu : ℝ) (corpus : ℕ → Doc V) (n : ℕ)
    (eval eval' : MultParams K V C × T → ℕ → VP K V) (next : T → T)
    (hE : ∀ q t i, i < n → eval' (bothMult σ τ q, t) i = VP.both σ τ (eval (q, t) i)) :
    FitsAlike (multinomial mu corpus) (multinomial mu fun i => (corpus i).words' τ) n eval eval' next
      .init .init (bothMult σ τ) := by
  intro q t W W' orders orders' m l logs m' l' logs' hlen ho ho' hc hc'
  refine Renames.fit (multinomialFree mu fun i => (corpus i).words' τ) (o := multinomialFree mu corpus)
    (Tr := VP.both σ τ) (Ts := MultState.both σ τ) (f := false) (f' := false) ⟨?_, hE, ?_⟩
    ⟨[], rfl, multHistory_is (mu := mu) (h := []) rfl, by simp [MultState.init]⟩
    ⟨[], rfl, multHistory_is (mu := mu) (h := []) rfl, by simp [MultState.init, MultState.both]⟩ hlen ho ho' hc hc'
  · rintro ⟨a, _ | p⟩ i r s _
    · rfl
    · exact (C116_multinomial_m mu p.2 (corpus i) r.phi (fun _ => 0) s).1
  · intro q t s f _
    simp only [multinomial, bothMult, (C116_multinomial_m mu (fun _ _ => 0) (corpus 0) (fun _ _ => 0) (fun _ => 0)
      s).2.2, Option.map_some]

/-- **C116**, training with the correspondence step: the per word parameters of the E step are renumbered too. -/
theorem C116_fit_correspondence (mu : ℝ) (corpus : ℕ → Doc V) (n : ℕ)
    (eval eval' : MultParams K V C × T → ℕ → VP K V × Vec V ℝ) (next : T → T)
    (hE : ∀ q t i, i < n → eval' (bothMult σ τ q, t) i =
      (VP.both σ τ (eval (q, t) i).1, along τ (eval (q, t) i).2)) :
    FitsAlike (correspondence mu corpus) (correspondence mu fun i => (corpus i).words' τ) n eval eval' next
      .init .init (bothMult σ τ) := by
  intro q t W W' orders orders' m l logs m' l' logs' hlen ho ho' hc hc'
  refine Renames.fit (correspondenceFree mu fun i => (corpus i).words' τ) (o := correspondenceFree mu corpus)
    (Tr := fun r => (VP.both σ τ r.1, along τ r.2)) (Ts := MultState.both σ τ) (f := false) (f' := false) ⟨?_, hE, ?_⟩
    ⟨[], rfl, multHistory_is (mu := mu) (h := []) rfl, by simp [MultState.init]⟩
    ⟨[], rfl, multHistory_is (mu := mu) (h := []) rfl, by simp [MultState.init, MultState.both]⟩ hlen ho ho' hc hc'
  · rintro ⟨a, _ | p⟩ i r s _
    · rfl
    · exact (C116_multinomial_m mu p.2 (corpus i) r.1.phi r.2 s).2.1
  · intro q t s f _
    simp only [correspondence, bothMult, (C116_multinomial_m mu (fun _ _ => 0) (corpus 0) (fun _ _ => 0) (fun _ => 0)
      s).2.2, Option.map_some]

/-! ### With the E steps of the library -/

open Classical in
/-- The topics, if they are finite. -/
noncomputable def realBeta (b : Beta K V) : Option (Mat K V ℝ) := if h : ∃ m, b.IsReal m then some h.choose else none

theorem isReal_unique {b : Beta K V} {m m' : Mat K V ℝ} (h : b.IsReal m) (h' : b.IsReal m') : m = m' := by
  unfold Beta.IsReal at h h'
  rw [h] at h'
  funext k n
  injection h' with e
  exact Ieee.fin.inj (congrFun (congrFun e k) n)

theorem realBeta_of {b : Beta K V} {m : Mat K V ℝ} (h : b.IsReal m) : realBeta b = some m := by
  have hex : ∃ m, b.IsReal m := ⟨m, h⟩
  rw [realBeta, dif_pos hex, isReal_unique hex.choose_spec h]

theorem realBeta_both (b : Beta K V) : realBeta (b.both σ τ) = (realBeta b).map (MStep.both σ τ) := by
  by_cases h : ∃ m, b.IsReal m
  · obtain ⟨m, hm⟩ := h
    rw [realBeta_of hm, Option.map_some]
    apply realBeta_of
    unfold Beta.IsReal at hm ⊢
    rw [hm]
    rfl
  · have h' : ¬ ∃ m, (b.both σ τ).IsReal m := by
      rintro ⟨m, hm⟩
      refine h ⟨MStep.both σ.symm τ.symm m, ?_⟩
      cases b with
      | noRows => simp [Beta.IsReal, Beta.both] at hm
      | matrix b =>
        simp only [Beta.IsReal, Beta.both, Beta.matrix.injEq] at hm ⊢
        funext k n
        have := congrFun (congrFun hm (σ.symm k)) (τ.symm n)
        simpa [MStep.both] using this
    rw [realBeta, realBeta, dif_neg h, dif_neg h']
    rfl

/-- What an E step `E` of the library gives during training; `any` where it is not defined, or the topics are not
finite. -/
noncomputable def libResults {R : Type} (E : T → Vec V ℕ → ℤ → Model K V C → Option R) (any : R) (corpus : ℕ → Doc V)
    (q : Params K V C × T) (i : ℕ) : R :=
  ((realBeta q.1.beta).bind fun beta => E q.2 (corpus i).words (corpus i).cls ⟨q.1.alpha, beta, q.1.eta⟩).getD any

/-- The same for the parameters of the multinomial and correspondence models. -/
noncomputable def libResultsMult {R : Type} (E : T → Vec V ℕ → ℤ → Model K V C → Option R) (any : R)
    (corpus : ℕ → Doc V) (q : MultParams K V C × T) (i : ℕ) : R :=
  (q.1.2.bind fun p => E q.2 (corpus i).words (corpus i).cls ⟨q.1.1, p.1, p.2⟩).getD any

theorem libResults_both {R : Type} {E : T → Vec V ℕ → ℤ → Model K V C → Option R} {Tr : R → R}
    (hE : ∀ t X y m, E t (along τ X) y ((m.topics σ).words τ) = (E t X y m).map Tr) (any : R) (corpus : ℕ → Doc V)
    (q : Params K V C) (t : T) (i : ℕ) :
    libResults E (Tr any) (fun i => (corpus i).words' τ) (q.both σ τ, t) i = Tr (libResults E any corpus (q, t) i) := by
  simp only [libResults, Params.both, realBeta_both, Doc.words']
  cases realBeta q.beta with
  | none => rfl
  | some beta =>
    simp only [Option.map_some, Option.bind_some]
    have := hE t (corpus i).words (corpus i).cls ⟨q.alpha, beta, q.eta⟩
    rw [show (⟨along σ q.alpha, MStep.both σ τ beta, rows σ q.eta⟩ : Model K V C) =
      ((⟨q.alpha, beta, q.eta⟩ : Model K V C).topics σ).words τ from rfl, this]
    cases E t (corpus i).words (corpus i).cls ⟨q.alpha, beta, q.eta⟩ <;> rfl

theorem libResultsMult_both {R : Type} {E : T → Vec V ℕ → ℤ → Model K V C → Option R} {Tr : R → R}
    (hE : ∀ t X y m, E t (along τ X) y ((m.topics σ).words τ) = (E t X y m).map Tr) (any : R) (corpus : ℕ → Doc V)
    (q : MultParams K V C) (t : T) (i : ℕ) :
    libResultsMult E (Tr any) (fun i => (corpus i).words' τ) (bothMult σ τ q, t) i =
      Tr (libResultsMult E any corpus (q, t) i) := by
  obtain ⟨alpha, _ | p⟩ := q
  · rfl
  · simp only [libResultsMult, bothMult, Doc.words', Option.map_some, Option.bind_some]
    have := hE t (corpus i).words (corpus i).cls ⟨alpha, p.1, p.2⟩
    rw [show (⟨along σ alpha, MStep.both σ τ p.1, rows σ p.2⟩ : Model K V C) =
      ((⟨alpha, p.1, p.2⟩ : Model K V C).topics σ).words τ from rfl, this]
    cases E t (corpus i).words (corpus i).cls ⟨alpha, p.1, p.2⟩ <;> rfl

variable (P : Prims) (cfg : EStep.Cfg)

/-- **C116**: LDA, with the E step and the M step of the library. -/
theorem C116_lda (corpus : ℕ → Doc V) (n : ℕ) (any : VP K V) (next : T → T) :
    FitsAlike (unsupervised corpus) (unsupervised fun i => (corpus i).words' τ) n
      (libResults (C := C) (fun _ X _ m => unsupervisedRun P cfg X m) any corpus)
      (libResults (C := C) (fun _ X _ m => unsupervisedRun P cfg X m) (VP.both σ τ any) fun i => (corpus i).words' τ)
      next none none (Params.both σ τ) := by
  refine C116_fit_unsupervised σ τ corpus n _ _ next fun q t i _ => libResults_both σ τ ?_ any corpus q t i
  intro t X y m
  rw [show along τ X = fun n => X (τ n) from rfl, unsupervisedRun_words, unsupervisedRun_topics, Option.map_map]
  rfl

/-- **C116**: fast supervised LDA, with the weights of its E step. -/
theorem C116_flda (mcfg : SupCfg) (corpus : ℕ → Doc V) (n : ℕ) (any : VP K V) :
    FitsAlike (fastSupervised mcfg corpus) (fastSupervised mcfg fun i => (corpus i).words' τ) n
      (libResults (C := C) (fun (t : EStep.FastState) X y m => fastRun P cfg t.weight X y m) any corpus)
      (libResults (C := C) (fun (t : EStep.FastState) X y m => fastRun P cfg t.weight X y m) (VP.both σ τ any)
        fun i => (corpus i).words' τ)
      EStep.FastState.eStep .init .init (Params.both σ τ) := by
  refine C116_fit_fast σ τ mcfg corpus n _ _ _ fun q t i _ => libResults_both σ τ ?_ any corpus q t i
  intro t X y m
  rw [show along τ X = fun n => X (τ n) from rfl, fastRun_words, fastRun_topics, Option.map_map]
  rfl

/-- **C116**: supervised LDA, for the topics.  For the vocabulary it is false (`C93_supervised_depends`). -/
theorem C116_slda_partial (mcfg : SupCfg) (fp : ℕ) (corpus : ℕ → Doc V) (n : ℕ) (any : VP K V) (next : T → T) :
    FitsAlike (supervised mcfg corpus) (supervised mcfg corpus) n
      (libResults (C := C) (fun _ X y m => (supervisedRun P cfg fp X y m).map Prod.fst) any corpus)
      (libResults (C := C) (fun _ X y m => (supervisedRun P cfg fp X y m).map Prod.fst) (VP.both σ (Equiv.refl _) any)
        corpus)
      next .init .init (Params.both σ (Equiv.refl _)) := by
  refine C116_fit_supervised σ (Equiv.refl _) mcfg corpus n _ _ next fun q t i _ =>
    libResults_both σ (Equiv.refl _) ?_ any corpus q t i
  intro t X y m
  rw [show along (Equiv.refl (Fin V)) X = X from rfl,
    show (m.topics σ).words (Equiv.refl (Fin V)) = m.topics σ from rfl, supervisedRun_topics, Option.map_map,
    Option.map_map]
  rfl

/-- **C116**: multinomial supervised LDA. -/
theorem C116_multinomial (mu ew : ℝ) (corpus : ℕ → Doc V) (n : ℕ) (any : VP K V) (next : T → T) :
    FitsAlike (multinomial mu corpus) (multinomial mu fun i => (corpus i).words' τ) n
      (libResultsMult (C := C) (fun _ X y m => multinomialRun P cfg ew X y m) any corpus)
      (libResultsMult (C := C) (fun _ X y m => multinomialRun P cfg ew X y m) (VP.both σ τ any)
        fun i => (corpus i).words' τ)
      next .init .init (bothMult σ τ) := by
  refine C116_fit_multinomial σ τ mu corpus n _ _ next fun q t i _ => libResultsMult_both σ τ ?_ any corpus q t i
  intro t X y m
  rw [show along τ X = fun n => X (τ n) from rfl, multinomialRun_words, multinomialRun_topics, Option.map_map]
  rfl

/-- **C116**: correspondence LDA. -/
theorem C116_correspondence (mu : ℝ) (corpus : ℕ → Doc V) (n : ℕ) (any : VP K V × Vec V ℝ) (next : T → T) :
    FitsAlike (correspondence mu corpus) (correspondence mu fun i => (corpus i).words' τ) n
      (libResultsMult (C := C) (fun _ X y m => correspondenceRun P cfg X y m) any corpus)
      (libResultsMult (C := C) (fun _ X y m => correspondenceRun P cfg X y m) (VP.both σ τ any.1, along τ any.2)
        fun i => (corpus i).words' τ)
      next .init .init (bothMult σ τ) := by
  refine C116_fit_correspondence σ τ mu corpus n _ _ next fun q t i _ =>
    libResultsMult_both σ τ (Tr := fun r => (VP.both σ τ r.1, along τ r.2)) ?_ any corpus q t i
  intro t X y m
  rw [show along τ X = fun n => X (τ n) from rfl, correspondenceRun_words, correspondenceRun_topics, Option.map_map]
  rfl

/-- Three documents over four words. -/
def threeDocs (i : ℕ) : Doc 4 := ⟨fun n => if n.val = i then 2 else 1, 0⟩

/-- Two trainings of LDA on three documents: one worker and the documents as they are; three workers, the documents
last to first in the second iteration, and the numbers of the topics and of the words turned round. -/
example (q : Params 2 4 1) (any : VP 2 4) : ∃ (m m' : Params 2 4 1 × Unit × Option (Buf 2 4))
    (logs logs' : List (List (Obs (VP 2 4)))),
    Calls (fitCalls (unsupervised threeDocs) id
      (libResults (fun _ X _ m => unsupervisedRun fastPrims demoCfg X m) any threeDocs) 1 3 [id, id]) .empty (q, (), some none)
      .empty m logs ∧
    Calls (fitCalls (unsupervised fun i => (threeDocs i).words' Fin.revPerm) id
      (libResults (fun _ X _ m => unsupervisedRun fastPrims demoCfg X m) (VP.both Fin.revPerm Fin.revPerm any)
        fun i => (threeDocs i).words' Fin.revPerm) 3 3 [id, fun i => 2 - i]) .empty
      (q.both Fin.revPerm Fin.revPerm, (), some none) .empty m' logs' ∧
    m'.1 = m.1.both Fin.revPerm Fin.revPerm := by
  obtain ⟨m, logs, h⟩ := calls_exist (unsupervised threeDocs) id
    (libResults (fun _ X _ m => unsupervisedRun fastPrims demoCfg X m) any threeDocs) (W := 1) (by norm_num) 3 [id, id] (q, (), some none)
  obtain ⟨m', logs', h'⟩ := calls_exist (unsupervised fun i => (threeDocs i).words' Fin.revPerm) id
    (libResults (fun _ X _ m => unsupervisedRun fastPrims demoCfg X m) (VP.both Fin.revPerm Fin.revPerm any)
      fun i => (threeDocs i).words' Fin.revPerm) (W := 3) (by norm_num) 3
    [id, fun i => 2 - i] (q.both Fin.revPerm Fin.revPerm, (), some none)
  refine ⟨m, m', logs, logs', h, h', ?_⟩
  exact (C116_lda Fin.revPerm Fin.revPerm fastPrims demoCfg _ 3 any id q () 1 3 [id, id] [id, fun i => 2 - i] m _ logs
    m' _ logs' rfl (by simp) (by
      intro p hp
      simp only [List.mem_cons, List.not_mem_nil, or_false] at hp
      rcases hp with rfl | rfl <;> decide) h h').1

end Verif.Train
