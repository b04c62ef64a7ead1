import Verif.Props.Fit
import Verif.Lemmas.Perm
import Verif.Model.Train

/-! Properties C08 and C10 for the batch maximisation steps of the library. -/
namespace Verif.Train

open MathUtils EStep MStep Pool Finset

variable {K V C : ℕ} {Q R S T D : Type}

/-- A maximisation step whose state is described by the documents given since the last `m_step`, and whose
`m_step` does not depend on their order.  The flag says whether the buffers have been allocated. -/
structure OrderFree (b : BatchStep Q R S) (D : Type) where
  item : Q → ℕ → R → D
  Is : S → List D → Bool → Prop
  ok : D → Prop
  doc_ok : ∀ {q i r s ds f}, Is s ds f → ok (item q i r) →
    ∃ s', b.doc q i r s = some s' ∧ Is s' (ds ++ [item q i r]) true
  doc_bad : ∀ {q i r s}, ¬ ok (item q i r) → b.doc q i r s = none
  step : ∀ {q s s' ds ds' f}, Is s ds f → Is s' ds' f → ds.Perm ds' →
    (b.step q s = none ∧ b.step q s' = none) ∨
    ∃ q' t t' k, b.step q s = some (q', t, k) ∧ b.step q s' = some (q', t', k) ∧ Is t [] f ∧ Is t' [] f

namespace OrderFree

variable {b : BatchStep Q R S} (o : OrderFree b D)

/-- The model parameters and the E step state are the same, and the M steps hold the same documents. -/
def Same (m m' : Q × T × Option S) : Prop :=
  m.1 = m'.1 ∧ m.2.1 = m'.2.1 ∧ ((m.2.2 = none ∧ m'.2.2 = none) ∨
    ∃ s s' ds ds' f, m.2.2 = some s ∧ m'.2.2 = some s' ∧ o.Is s ds f ∧ o.Is s' ds' f ∧ ds.Perm ds')

/-- The documents `l`, one after the other. -/
def docs (b : BatchStep Q R S) (m : Q × T × Option S) (l : List (ℕ × R)) : Q × T × Option S :=
  l.foldl (fun m d => (trainDoc b d.1 d.2 m).1) m

theorem docs_params (m : Q × T × Option S) (l : List (ℕ × R)) :
    (docs b m l).1 = m.1 ∧ (docs b m l).2.1 = m.2.1 := by
  induction l generalizing m with
  | nil => exact ⟨rfl, rfl⟩
  | cons a l ih => exact ih _

theorem docs_none (q : Q) (t : T) (l : List (ℕ × R)) : docs b (q, t, none) l = (q, t, none) := by
  induction l with
  | nil => rfl
  | cons a l ih => exact ih

theorem docs_state (q : Q) (t : T) (l : List (ℕ × R)) : ∀ (s : S) (ds : List D) (f : Bool), o.Is s ds f →
    ((∃ d ∈ l, ¬ o.ok (o.item q d.1 d.2)) ∧ docs b (q, t, some s) l = (q, t, none)) ∨
    ((∀ d ∈ l, o.ok (o.item q d.1 d.2)) ∧ ∃ s', docs b (q, t, some s) l = (q, t, some s') ∧
      o.Is s' (ds ++ l.map fun d => o.item q d.1 d.2) (f || !l.isEmpty)) := by
  induction l with
  | nil =>
    intro s ds f h
    exact .inr ⟨by simp, s, rfl, by simpa using h⟩
  | cons a l ih =>
    intro s ds f h
    by_cases ha : o.ok (o.item q a.1 a.2)
    · obtain ⟨s1, h1, h2⟩ := o.doc_ok h ha
      have hstep : docs b (q, t, some s) (a :: l) = docs b (q, t, some s1) l := by
        simp [docs, trainDoc, h1]
      rw [hstep]
      rcases ih s1 _ _ h2 with ⟨⟨d, hd, hd'⟩, e⟩ | ⟨hok, s', e, hI⟩
      · exact .inl ⟨⟨d, List.mem_cons_of_mem _ hd, hd'⟩, e⟩
      · refine .inr ⟨?_, s', e, ?_⟩
        · intro d hd
          rcases List.mem_cons.1 hd with rfl | hd
          · exact ha
          · exact hok d hd
        · simpa using hI
    · refine .inl ⟨⟨a, List.mem_cons_self, ha⟩, ?_⟩
      have hstep : docs b (q, t, some s) (a :: l) = docs b (q, t, none) l := by
        simp [docs, trainDoc, o.doc_bad ha]
      rw [hstep, docs_none]

/-- The same documents in any order. -/
theorem docs_same {m m' : Q × T × Option S} (h : o.Same m m') {l l' : List (ℕ × R)} (hp : l.Perm l') :
    o.Same (docs b m l) (docs b m' l') := by
  obtain ⟨q, t, x⟩ := m
  obtain ⟨q', t', x'⟩ := m'
  obtain ⟨rfl, rfl, h⟩ := h
  rcases h with ⟨h1, h2⟩ | ⟨s, s', ds, ds', f, h1, h2, h3, h4, h5⟩
  · simp only at h1 h2
    subst h1 h2
    rw [docs_none, docs_none]
    exact ⟨rfl, rfl, .inl ⟨rfl, rfl⟩⟩
  · simp only at h1 h2
    subst h1 h2
    rcases o.docs_state q t l s ds f h3 with ⟨⟨d, hd, hd'⟩, e⟩ | ⟨hok, s1, e, hI⟩ <;>
      rcases o.docs_state q t l' s' ds' f h4 with ⟨⟨d1, hd1, hd1'⟩, e'⟩ | ⟨hok', s1', e', hI'⟩
    · rw [e, e']
      exact ⟨rfl, rfl, .inl ⟨rfl, rfl⟩⟩
    · exact absurd (hok' d (hp.mem_iff.1 hd)) hd'
    · exact absurd (hok d1 (hp.mem_iff.2 hd1)) hd1'
    · rw [e, e']
      have hf : l.isEmpty = l'.isEmpty := by
        rw [Bool.eq_iff_iff, List.isEmpty_iff, List.isEmpty_iff]
        exact ⟨fun e => by subst e; exact hp.nil_eq.symm, fun e => by subst e; exact hp.eq_nil⟩
      rw [hf] at hI
      exact ⟨rfl, rfl, .inr ⟨_, _, _, _, _, rfl, rfl, hI, hI', h5.append (hp.map _)⟩⟩

theorem batch_same {m m' : Q × T × Option S} (h : o.Same m m') (next : T → T) :
    o.Same (trainBatch b next m).1 (trainBatch b next m').1 := by
  obtain ⟨q, t, x⟩ := m
  obtain ⟨q', t', x'⟩ := m'
  obtain ⟨rfl, rfl, h⟩ := h
  rcases h with ⟨h1, h2⟩ | ⟨s, s', ds, ds', f, h1, h2, h3, h4, h5⟩
  · simp only at h1 h2
    subst h1 h2
    exact ⟨rfl, rfl, .inl ⟨rfl, rfl⟩⟩
  · simp only at h1 h2
    subst h1 h2
    rcases o.step (q := q) h3 h4 h5 with ⟨e1, e2⟩ | ⟨q', u, u', k, e1, e2, i1, i2⟩
    · simp only [trainBatch, Option.bind_some, e1, e2]
      exact ⟨rfl, rfl, .inl ⟨rfl, rfl⟩⟩
    · simp only [trainBatch, Option.bind_some, e1, e2]
      exact ⟨rfl, rfl, .inr ⟨_, _, _, _, _, rfl, rfl, i1, i2, List.Perm.nil⟩⟩

end OrderFree

/-- One epoch as one would write it down without threads: the E step on every document for the parameters at
the start, `doc_m_step` in the order of the corpus, `m_step`. -/
def epoch (b : BatchStep Q R S) (next : T → T) (eval : Q × T → ℕ → R) (n : ℕ) (m : Q × T × Option S) :
    Q × T × Option S :=
  seqEpoch n trainParams eval (fun i r x => (trainDoc b i r x).1) (fun x => (trainBatch b next x).1) m

/-- Every schedule of an epoch hands every document over once, and the M step sees the documents in the order of
arrival. -/
theorem partial_fit_order {b : BatchStep Q R S} {next : T → T} {eval : Q × T → ℕ → R}
    {owner : Bool} {W n : ℕ} {order : ℕ → ℕ} {m : Q × T × Option S} {s : St (Q × T × Option S) R W}
    (h : Reachable (trainCfg b next eval owner W n order) m s) (hr : s.main = .ret) :
    s.model = (trainBatch b next (OrderFree.docs b m ((((consumed s.log).map Prod.fst).map order).map
      fun i => (i, eval (trainParams m) i)))).1 := by
  have hmod := inv_model (c := trainCfg b next eval owner W n order) s h
  have hk : (trainCfg b next eval owner W n order).kind = .partialFit := rfl
  simp only [hr, ModelP, hk] at hmod
  rw [hmod]
  have hb : BatchM (trainCfg b next eval owner W n order) := fun _ _ _ => rfl
  have hcons : (consumed s.log).map (fun d => (order d.1, d.2)) = (((consumed s.log).map Prod.fst).map order).map
      fun i => (i, eval (trainParams m) i) := by
    rw [List.map_map, List.map_map]
    apply List.map_congr_left
    intro d hd
    have h1 := (C01_result_of_same_document hb h d hd).2
    have h2 : d.2 = eval (trainParams m) (order d.1) := h1
    simp [← h2]
  rw [← hcons]
  have hseq : seqDocs (trainCfg b next eval owner W n order) m (consumed s.log) =
      OrderFree.docs b m ((consumed s.log).map fun d => (order d.1, d.2)) := by
    rw [seqDocs, OrderFree.docs, List.foldl_map]
    rfl
  rw [hseq]
  rfl

/-- Every schedule of every epoch gives what the sequential epoch does. -/
theorem partial_fit_same {b : BatchStep Q R S} (o : OrderFree b D) {next : T → T} {eval : Q × T → ℕ → R}
    {owner : Bool} {W n : ℕ} {order : ℕ → ℕ} (ho : ((List.range n).map order).Perm (List.range n))
    {m m' : Q × T × Option S} (hm : o.Same m m') {s : St (Q × T × Option S) R W}
    (h : Reachable (trainCfg b next eval owner W n order) m s) (hr : s.main = .ret) :
    o.Same s.model (epoch b next eval n m') := by
  rw [partial_fit_order h hr]
  have hperm := (((C01_each_document_once h hr).1.map order).trans ho).map fun i => (i, eval (trainParams m) i)
  have hpar : trainParams m' = trainParams m := by
    obtain ⟨h1, h2, _⟩ := hm
    simp [trainParams, h1, h2]
  have hep : epoch b next eval n m' = (trainBatch b next
      (OrderFree.docs b m' ((List.range n).map fun i => (i, eval (trainParams m) i)))).1 := by
    rw [epoch, seqEpoch, OrderFree.docs, List.foldl_map, hpar]
  rw [hep]
  exact o.batch_same (o.docs_same hm hperm) next

/-- **C08**, for every batch M step that is `OrderFree`: after `partial_fit` the model parameters are the same
for any two schedules, numbers of workers, calling threads and orders in which the corpus was shuffled, and
they are those of the sequential epoch. -/
theorem C08_partial_fit {b : BatchStep Q R S} (o : OrderFree b D) {s0 : S} {ds : List D} {f : Bool}
    (h0 : o.Is s0 ds f) {next : T → T} {eval : Q × T → ℕ → R} {q : Q} {t : T} {owner owner' : Bool}
    {W W' n : ℕ} {order order' : ℕ → ℕ} (ho : ((List.range n).map order).Perm (List.range n))
    (ho' : ((List.range n).map order').Perm (List.range n))
    {s : St (Q × T × Option S) R W} {s' : St (Q × T × Option S) R W'}
    (h : Reachable (trainCfg b next eval owner W n order) (q, t, some s0) s) (hr : s.main = .ret)
    (h' : Reachable (trainCfg b next eval owner' W' n order') (q, t, some s0) s') (hr' : s'.main = .ret) :
    s.model.1 = s'.model.1 ∧ (s.model.2.2 = none ↔ s'.model.2.2 = none) ∧
    s.model.1 = (epoch b next eval n (q, t, some s0)).1 := by
  have hm : o.Same (q, t, some s0) (q, t, some s0) :=
    ⟨rfl, rfl, .inr ⟨_, _, _, _, _, rfl, rfl, h0, h0, List.Perm.refl _⟩⟩
  have key : ∀ x y : Q × T × Option S, o.Same x y → (x.2.2 = none ↔ y.2.2 = none) := by
    rintro x y ⟨_, _, ⟨e1, e2⟩ | ⟨_, _, _, _, _, e1, e2, _⟩⟩ <;> simp [e1, e2]
  have e1 := partial_fit_same o ho hm h hr
  have e2 := partial_fit_same o ho' hm h' hr'
  exact ⟨e1.1.trans e2.1.symm, (key _ _ e1).trans (key _ _ e2).symm, e1.1⟩

/-- `LDA::fit` (LDA.cpp:64-81) with a maximisation step: one `partial_fit` per element of `orders`. -/
def fitCalls (b : BatchStep Q R S) (next : T → T) (eval : Q × T → ℕ → R) (W n : ℕ)
    (orders : List (ℕ → ℕ)) : List (Cfg (Q × T × Option S) (Q × T) R) :=
  orders.map (trainCfg b next eval true W n)

theorem fit_same {b : BatchStep Q R S} (o : OrderFree b D) {next : T → T} {eval : Q × T → ℕ → R} {W n : ℕ}
    (orders : List (ℕ → ℕ)) (ho : ∀ p ∈ orders, ((List.range n).map p).Perm (List.range n)) :
    ∀ (m m1 m' : Q × T × Option S) (l' : Left R) (logs : List (List (Obs R))), o.Same m m1 →
    Calls (fitCalls b next eval W n orders) .empty m l' m' logs →
    o.Same m' ((epoch b next eval n)^[orders.length] m1) := by
  induction orders with
  | nil =>
    intro m m1 m' l' logs hm h
    cases h
    exact hm
  | cons p orders ih =>
    intro m m1 m' l' logs hm h
    rw [fitCalls, List.map_cons] at h
    cases h with
    | cons as s hrun hret ht =>
      have hR : Reachable (trainCfg b next eval true W n p) m s := ⟨as, hrun⟩
      have hclean := C06_nothing_left hR hret
      have hleft : s.left = .empty := by
        simp [St.left, Left.empty, hclean.1, hclean.2.1, hclean.2.2.2 rfl]
      rw [hleft] at ht
      rw [List.length_cons, Function.iterate_succ_apply]
      exact ih (fun x hx => ho x (List.mem_cons_of_mem _ hx)) _ _ _ _ _
        (partial_fit_same o (ho p List.mem_cons_self) hm hR hret) ht

/-- **C08** and **C10** for `fit`: after any number of epochs, with any schedules, numbers of workers and
shuffles, the parameters are those of as many sequential epochs. -/
theorem C08_fit {b : BatchStep Q R S} (o : OrderFree b D) {s0 : S} {ds : List D} {f : Bool}
    (h0 : o.Is s0 ds f) {next : T → T} {eval : Q × T → ℕ → R} {q : Q} {t : T} {W n : ℕ}
    {orders : List (ℕ → ℕ)} (ho : ∀ p ∈ orders, ((List.range n).map p).Perm (List.range n))
    {m' : Q × T × Option S} {l' : Left R} {logs : List (List (Obs R))}
    (h : Calls (fitCalls b next eval W n orders) .empty (q, t, some s0) l' m' logs) :
    m'.1 = ((epoch b next eval n)^[orders.length] (q, t, some s0)).1 ∧
    (m'.2.2 = none ↔ ((epoch b next eval n)^[orders.length] (q, t, some s0)).2.2 = none) := by
  have hm : o.Same (q, t, some s0) (q, t, some s0) :=
    ⟨rfl, rfl, .inr ⟨_, _, _, _, _, rfl, rfl, h0, h0, List.Perm.refl _⟩⟩
  obtain ⟨h1, _, h2⟩ := fit_same o orders ho _ _ _ _ _ hm h
  refine ⟨h1, ?_⟩
  rcases h2 with ⟨e1, e2⟩ | ⟨_, _, _, _, _, e1, e2, _⟩ <;> simp [e1, e2]

/-! ### The maximisation steps of the library -/

/-- `UnsupervisedMStep`. -/
def unsupervisedFree (corpus : ℕ → Doc V) :
    OrderFree (unsupervised (K := K) (C := C) corpus) (Given K V) where
  item _ i r := (corpus i, r)
  Is s ds f := BufIs s ds ∧ (f = false ↔ s = none)
  ok _ := True
  doc_ok := by
    intro q i r s ds f h _
    exact ⟨_, rfl, h.1.doc (corpus i, r), by simp [uDoc, Buf.add]⟩
  doc_bad := by simp
  step := by
    intro q s s' ds ds' f h h' hp
    have hn : s = none ↔ s' = none := h.2.symm.trans h'.2
    have hc : ∀ s : Buf K V, s.clear = none ↔ s = none := fun s => by cases s <;> simp [Buf.clear]
    refine .inr ⟨{ q with beta := uBeta s }, s.clear, s'.clear, 0, rfl, ?_, ⟨BufIs.clear, ?_⟩, BufIs.clear, ?_⟩
    · have := uBeta_perm h.1 h'.1 hp hn
      simp [unsupervised, uM, this]
    · rw [hc]; exact h.2
    · rw [hc]; exact h'.2

theorem bufIs_ne_none {b : Buf K V} {ds : List (Given K V)} {d : Given K V} (h : BufIs b (ds ++ [d])) :
    b ≠ none := by
  rintro rfl
  have : ds ++ [d] = [] := h
  simp at this

theorem fast_step_perm {cfg : SupCfg} {q : Params K V C} {corpus : ℕ → Doc V} {s s' : FastState K V}
    {ds ds' : List (Vec K ℝ × Given K V)} {all all' : List (Given K V)} {f : Bool} (h : FastIs s ds all)
    (h' : FastIs s' ds' all') (hp : ds.Perm ds') (hp' : all.Perm all') (hf : f = false ↔ s.b = none)
    (hf' : f = false ↔ s'.b = none) :
    ((fastSupervised cfg corpus).step q s = none ∧ (fastSupervised cfg corpus).step q s' = none) ∨
    ∃ q' t t' k, (fastSupervised cfg corpus).step q s = some (q', t, k) ∧
      (fastSupervised cfg corpus).step q s' = some (q', t', k) ∧
      (FastIs t [] [] ∧ (f = false ↔ t.b = none)) ∧ FastIs t' [] [] ∧ (f = false ↔ t'.b = none) := by
  obtain ⟨t, a1, _, a3, a4⟩ := h.step cfg q.eta
  obtain ⟨t', b1, _, b3, b4⟩ := h'.step cfg q.eta
  have hbeta := uBeta_perm h.buf h'.buf hp' (hf.symm.trans hf')
  have hd := fast_descend_perm hp cfg q.eta
  have hmap : ∀ (x : Option (Optim.Problem K C)) (be : Beta K V) (u : FastState K V),
      ((x.bind fun pr => (descend cfg pr q.eta).map fun r =>
        ((⟨be, r.1, r.2.map some⟩ : MOut K V C), u)).map fun o =>
        (({ q with beta := o.1.beta, eta := o.1.eta } : Params K V C), o.2, o.1.events.length)) =
      (x.bind fun pr => descend cfg pr q.eta).map fun r =>
        (({ q with beta := be, eta := r.1 } : Params K V C), u, r.2.length) := by
    intro x be u
    cases x with
    | none => rfl
    | some pr => cases hh : descend cfg pr q.eta <;> simp [hh]
  simp only [fastSupervised, a4, b4, hmap, hbeta, hd]
  cases hx : (Optim.logisticDefault C (ds'.map fun d => topicShare d.1 d.2.2.gamma)
      (ds'.map fun d => d.2.1.cls) cfg.penalty).bind fun pr => descend cfg pr q.eta with
  | none => exact .inl ⟨rfl, rfl⟩
  | some r => exact .inr ⟨_, t, t', _, rfl, rfl, ⟨a1, hf.trans a3⟩, b1, hf'.trans b3⟩

/-- `FastSupervisedMStep`. -/
def fastFree (cfg : SupCfg) (corpus : ℕ → Doc V) :
    OrderFree (fastSupervised (K := K) (C := C) cfg corpus) (DocArg K V) where
  item q i r := (q.alpha, corpus i, r)
  Is s ds f := FastIs s ds (ds.map Prod.snd) ∧ (f = false ↔ s.b = none)
  ok _ := True
  doc_ok := by
    intro q i r s ds f h _
    obtain ⟨s', h1, h2, _⟩ := h.1.doc (q.alpha, corpus i, r)
    refine ⟨s', h1, by simpa using h2, ?_⟩
    simp [bufIs_ne_none h2.buf]
  doc_bad := by simp
  step := by
    intro q s s' ds ds' f h h' hp
    exact fast_step_perm h.1 h'.1 hp (hp.map _) h.2 h'.2

/-- `SemiSupervisedMStep`. -/
def semiFree (cfg : SupCfg) (corpus : ℕ → Doc V) :
    OrderFree (semiSupervised (K := K) (C := C) cfg corpus) (DocArg K V) where
  item q i r := (q.alpha, corpus i, r)
  Is s ds f := FastIs s (labelled ds) (ds.map Prod.snd) ∧ (f = false ↔ s.b = none)
  ok _ := True
  doc_ok := by
    intro q i r s ds f h _
    obtain ⟨s', h1, h2⟩ := semiDoc_is h.1 (q.alpha, corpus i, r)
    refine ⟨s', h1, h2, ?_⟩
    rw [List.map_append] at h2
    simp [bufIs_ne_none h2.buf]
  doc_bad := by simp
  step := by
    intro q s s' ds ds' f h h' hp
    exact fast_step_perm (corpus := corpus) h.1 h'.1 (hp.filter _) (hp.map _) h.2 h'.2

/-- `SupervisedMStep`. -/
def supervisedFree (cfg : SupCfg) (corpus : ℕ → Doc V) :
    OrderFree (supervised (K := K) (C := C) cfg corpus) (DocArg K V) where
  item q i r := (q.alpha, corpus i, r)
  Is s ds f := SupIs s ds ∧ (f = false ↔ s.b = none)
  ok d := numWords d.2.1.words * numWords d.2.1.words ≤ 2147483647
  doc_ok := by
    intro q i r s ds f h hok
    obtain ⟨s', h1, h2, _⟩ := h.1.doc (q.alpha, corpus i, r) hok
    refine ⟨s', h1, h2, ?_⟩
    have := h2.buf
    rw [List.map_append] at this
    simp [bufIs_ne_none this]
  doc_bad := by
    intro q i r s h
    exact supDoc_overflow (q.alpha, corpus i, r) (by simpa using h)
  step := by
    intro q s s' ds ds' f h h' hp
    obtain ⟨t, a1, _, a3, a4⟩ := h.1.step cfg q.eta
    obtain ⟨t', b1, _, b3, b4⟩ := h'.1.step cfg q.eta
    have hbeta := uBeta_perm h.1.buf h'.1.buf (hp.map _) (h.2.symm.trans h'.2)
    simp only [supervised, a4, b4, hbeta, sup_descend_perm hp cfg q.eta]
    cases supDescend cfg (ds'.map fun d => supZbar (numWords d.2.1.words) d.2.2.gamma d.1)
        (ds'.map fun d => supVar (numWords d.2.1.words) d.2.1.words d.2.2.phi)
        (ds'.map fun d => d.2.1.cls) q.eta with
    | none => exact .inl ⟨rfl, rfl⟩
    | some r => exact .inr ⟨_, t, t', _, rfl, rfl, ⟨a1, h.2.trans a3⟩, b1, h'.2.trans b3⟩

/-- A document given to one of the multinomial steps, if `eta` has columns. -/
def MultOk (d : Option (Sample K V C)) : Prop := ∃ a, d = some a ∧ 0 ≤ a.cls ∧ a.cls < (C : ℤ)

/-- The state of the multinomial steps. -/
def MultHolds (s : MultState K V C) (ds : List (Option (Sample K V C))) (f : Bool) : Prop :=
  ∃ l, ds = l.map some ∧ MultIs s l ∧ (f = false ↔ s.bufs = none)

theorem mult_doc_ok {s : MultState K V C} {ds : List (Option (Sample K V C))} {f : Bool}
    {d : Option (Sample K V C)} (h : MultHolds s ds f) (hok : MultOk d) :
    ∃ s', (d.bind fun a => multAdd a.eta a.cls a.counts s) = some s' ∧ MultHolds s' (ds ++ [d]) true := by
  obtain ⟨a, rfl, ha⟩ := hok
  obtain ⟨l, rfl, h1, h2⟩ := h
  obtain ⟨s', hs'⟩ := (multAdd_defined a s).2 ha
  refine ⟨s', hs', l ++ [a], by simp, h1.doc hs', ?_⟩
  simp only [multAdd, Option.map_eq_some_iff] at hs'
  obtain ⟨_, _, rfl⟩ := hs'
  simp

theorem mult_doc_bad {s : MultState K V C} {d : Option (Sample K V C)} (h : ¬ MultOk d) :
    (d.bind fun a => multAdd a.eta a.cls a.counts s) = none := by
  cases d with
  | none => rfl
  | some a =>
    cases hs : multAdd a.eta a.cls a.counts s with
    | none => simp [hs]
    | some s' => exact absurd ⟨a, rfl, (multAdd_defined a s).1 ⟨s', hs⟩⟩ h

theorem mult_step_perm {s s' : MultState K V C} {ds ds' : List (Option (Sample K V C))} {f : Bool} (mu : ℝ)
    (h : MultHolds s ds f) (h' : MultHolds s' ds' f) (hp : ds.Perm ds') :
    (multM mu s).1.params = (multM mu s').1.params ∧ MultHolds (multM mu s).2 [] f ∧
      MultHolds (multM mu s').2 [] f := by
  obtain ⟨l, rfl, h1, h2⟩ := h
  obtain ⟨l', rfl, h1', h2'⟩ := h'
  have hp' : l.Perm l' := by
    have := hp.filterMap id
    simpa using this
  refine ⟨?_, ⟨[], rfl, MultIs.step mu, ?_⟩, [], rfl, MultIs.step mu, ?_⟩
  · have e1 := h1.2
    have e2 := h1'.2
    cases hb : s.bufs with
    | none =>
      have : s'.bufs = none := h2'.1 (h2.2 hb)
      simp [multM, hb, this]
    | some p =>
      cases hb' : s'.bufs with
      | none =>
        have := h2.1 (h2'.2 hb')
        rw [hb] at this
        cases this
      | some p' =>
        simp only [hb] at e1
        simp only [hb'] at e2
        simp only [multM, hb, hb', Option.map_some, e1.1, e1.2.1, e2.1, e2.2.1, wordCount_perm hp',
          classCount_perm hp']
  · simpa [multM] using h2
  · simpa [multM] using h2'

/-- `MultinomialSupervisedMStep`. -/
noncomputable def multinomialFree (mu : ℝ) (corpus : ℕ → Doc V) :
    OrderFree (multinomial (K := K) (C := C) mu corpus) (Option (Sample K V C)) where
  item q i r := q.2.map fun p => multSample p.2 (corpus i, r)
  Is := MultHolds
  ok := MultOk
  doc_ok := by
    intro q i r s ds f h hok
    obtain ⟨s', h1, h2⟩ := mult_doc_ok h hok
    refine ⟨s', ?_, h2⟩
    rw [Option.bind_map] at h1
    exact h1
  doc_bad := by
    intro q i r s h
    have := mult_doc_bad (s := s) h
    rw [Option.bind_map] at this
    exact this
  step := by
    intro q s s' ds ds' f h h' hp
    obtain ⟨h1, h2, h3⟩ := mult_step_perm mu h h' hp
    exact .inr ⟨_, _, _, _, rfl, by simp only [multinomial, h1], h2, h3⟩

/-- `CorrespondenceSupervisedMStep`. -/
noncomputable def correspondenceFree (mu : ℝ) (corpus : ℕ → Doc V) :
    OrderFree (correspondence (K := K) (C := C) mu corpus) (Option (Sample K V C)) where
  item q i r := q.2.map fun p => corrSample p.2 (corpus i, r.1) r.2
  Is := MultHolds
  ok := MultOk
  doc_ok := by
    intro q i r s ds f h hok
    obtain ⟨s', h1, h2⟩ := mult_doc_ok h hok
    refine ⟨s', ?_, h2⟩
    rw [Option.bind_map] at h1
    exact h1
  doc_bad := by
    intro q i r s h
    have := mult_doc_bad (s := s) h
    rw [Option.bind_map] at this
    exact this
  step := by
    intro q s s' ds ds' f h h' hp
    obtain ⟨h1, h2, h3⟩ := mult_step_perm mu h h' hp
    exact .inr ⟨_, _, _, _, rfl, by simp only [correspondence, h1], h2, h3⟩

/-! ### C08 for each of them

`ScheduleIndependent b s0` and `FitIndependent b s0` are the conclusions for a maximisation step whose
members hold `s0` when the call starts. -/

/-- After `partial_fit` the model parameters are the same for every two schedules, numbers of workers, calling
threads and shuffles, whatever the E step and the parameters at the start, and they are those of the
sequential epoch; and undefined behaviour occurs under both or under neither. -/
def ScheduleIndependent (b : BatchStep Q R S) (s0 : S) : Prop :=
  ∀ (T : Type) (next : T → T) (eval : Q × T → ℕ → R) (q : Q) (t : T) (owner owner' : Bool) (W W' n : ℕ)
    (order order' : ℕ → ℕ) (s : St (Q × T × Option S) R W) (s' : St (Q × T × Option S) R W'),
    ((List.range n).map order).Perm (List.range n) → ((List.range n).map order').Perm (List.range n) →
    Reachable (trainCfg b next eval owner W n order) (q, t, some s0) s → s.main = .ret →
    Reachable (trainCfg b next eval owner' W' n order') (q, t, some s0) s' → s'.main = .ret →
    s.model.1 = s'.model.1 ∧ (s.model.2.2 = none ↔ s'.model.2.2 = none) ∧
    s.model.1 = (epoch b next eval n (q, t, some s0)).1

/-- The same for `fit` with any number of epochs. -/
def FitIndependent (b : BatchStep Q R S) (s0 : S) : Prop :=
  ∀ (T : Type) (next : T → T) (eval : Q × T → ℕ → R) (q : Q) (t : T) (W n : ℕ) (orders : List (ℕ → ℕ))
    (m' : Q × T × Option S) (l' : Left R) (logs : List (List (Obs R))),
    (∀ p ∈ orders, ((List.range n).map p).Perm (List.range n)) →
    Calls (fitCalls b next eval W n orders) .empty (q, t, some s0) l' m' logs →
    m'.1 = ((epoch b next eval n)^[orders.length] (q, t, some s0)).1 ∧
    (m'.2.2 = none ↔ ((epoch b next eval n)^[orders.length] (q, t, some s0)).2.2 = none)

theorem independent {b : BatchStep Q R S} (o : OrderFree b D) {s0 : S} (h : ∃ ds f, o.Is s0 ds f) :
    ScheduleIndependent b s0 ∧ FitIndependent b s0 := by
  obtain ⟨ds, f, h0⟩ := h
  exact ⟨fun _ _ _ _ _ _ _ _ _ _ _ _ _ _ ho ho' h hr h' hr' => C08_partial_fit o h0 ho ho' h hr h' hr',
    fun _ _ _ _ _ _ _ _ _ _ _ ho h => C08_fit o h0 ho h⟩

/-- A flag that says whether the buffers are allocated. -/
theorem exists_flag {A : Type} (b : Option A) : ∃ f : Bool, f = false ↔ b = none := by
  cases b with
  | none => exact ⟨false, by simp⟩
  | some a => exact ⟨true, by simp⟩

/-- **C08**, unsupervised M step, after any earlier use of it. -/
theorem C08_unsupervised (corpus : ℕ → Doc V) {h : List (Call (Given K V) Unit)} {s0 : Buf K V}
    (hs : uHistory h = some s0) :
    ScheduleIndependent (unsupervised (C := C) corpus) s0 ∧
    FitIndependent (unsupervised (C := C) corpus) s0 := by
  obtain ⟨f, hf⟩ := exists_flag s0
  exact independent (unsupervisedFree corpus) ⟨_, f, uHistory_buf hs, hf⟩

/-- **C08**, fast supervised M step. -/
theorem C08_fast_supervised (cfg : SupCfg) (corpus : ℕ → Doc V)
    {h : List (Call (DocArg K V) (Mat K C ℝ))} {s0 : FastState K V} (hs : fastHistory cfg h = some s0) :
    ScheduleIndependent (fastSupervised (C := C) cfg corpus) s0 ∧
    FitIndependent (fastSupervised (C := C) cfg corpus) s0 := by
  obtain ⟨f, hf⟩ := exists_flag s0.b
  exact independent (fastFree cfg corpus) ⟨_, f, fastHistory_is hs, hf⟩

/-- **C08**, semi-supervised M step. -/
theorem C08_semi_supervised (cfg : SupCfg) (corpus : ℕ → Doc V)
    {h : List (Call (DocArg K V) (Mat K C ℝ))} {s0 : FastState K V} (hs : semiHistory cfg h = some s0) :
    ScheduleIndependent (semiSupervised (C := C) cfg corpus) s0 ∧
    FitIndependent (semiSupervised (C := C) cfg corpus) s0 := by
  obtain ⟨f, hf⟩ := exists_flag s0.b
  exact independent (semiFree cfg corpus) ⟨_, f, semiHistory_is hs, hf⟩

/-- **C08**, supervised M step. -/
theorem C08_supervised (cfg : SupCfg) (corpus : ℕ → Doc V)
    {h : List (Call (DocArg K V) (Mat K C ℝ))} {s0 : SupState K V} (hs : supHistory cfg h = some s0) :
    ScheduleIndependent (supervised (C := C) cfg corpus) s0 ∧
    FitIndependent (supervised (C := C) cfg corpus) s0 := by
  obtain ⟨f, hf⟩ := exists_flag s0.b
  exact independent (supervisedFree cfg corpus) ⟨_, f, supHistory_is hs, hf⟩

/-- **C08**, multinomial supervised M step. -/
theorem C08_multinomial (mu : ℝ) (corpus : ℕ → Doc V) {h : List (Call (Sample K V C) Unit)}
    {s0 : MultState K V C} (hs : multHistory mu h = some s0) :
    ScheduleIndependent (multinomial mu corpus) s0 ∧ FitIndependent (multinomial mu corpus) s0 := by
  obtain ⟨f, hf⟩ := exists_flag s0.bufs
  exact independent (multinomialFree mu corpus) ⟨_, f, _, rfl, multHistory_is hs, hf⟩

/-- **C08**, correspondence supervised M step. -/
theorem C08_correspondence (mu : ℝ) (corpus : ℕ → Doc V) {h : List (Call (Sample K V C) Unit)}
    {s0 : MultState K V C} (hs : multHistory mu h = some s0) :
    ScheduleIndependent (correspondence mu corpus) s0 ∧ FitIndependent (correspondence mu corpus) s0 := by
  obtain ⟨f, hf⟩ := exists_flag s0.bufs
  exact independent (correspondenceFree mu corpus) ⟨_, f, _, rfl, multHistory_is hs, hf⟩

/-- The hypotheses can be met: every call with a worker can return, so there are such schedules for any two
numbers of workers; and the steps are fresh when constructed. -/
example (b : BatchStep Q R S) (next : T → T) (eval : Q × T → ℕ → R) (m : Q × T × Option S) (W n : ℕ)
    (hW : 0 < W) (order : ℕ → ℕ) :
    ∃ s, Reachable (trainCfg b next eval true W n order) m s ∧ s.main = .ret := by
  obtain ⟨⟨as, s, h1, h2⟩, _⟩ := C05_returns_partial (c := trainCfg b next eval true W n order) (m := m) (.inl hW)
    (Reachable.init _ m)
  exact ⟨s, ⟨as, h1⟩, h2⟩

example (n : ℕ) : ((List.range n).map fun i => n - 1 - i).Perm (List.range n) := by
  have : (List.range n).map (fun i => n - 1 - i) = (List.range n).reverse := by
    apply List.ext_getElem <;> simp
  rw [this]
  exact List.reverse_perm _

example : uHistory (K := K) (V := V) [] = some none ∧
    (∃ s, fastHistory (K := K) (V := V) (C := C) ⟨10, 0, 0⟩ [] = some s) ∧
    (∃ s, semiHistory (K := K) (V := V) (C := C) ⟨10, 0, 0⟩ [] = some s) ∧
    (∃ s, supHistory (K := K) (V := V) (C := C) ⟨10, 0, 0⟩ [] = some s) ∧
    (∃ s, multHistory (K := K) (V := V) (C := C) 2 [] = some s) :=
  ⟨rfl, ⟨_, rfl⟩, ⟨_, rfl⟩, ⟨_, rfl⟩, _, rfl⟩

/-- An epoch of the unsupervised step that changes the model: one topic, two words, two documents. -/
example : ((epoch (unsupervised (K := 1) (V := 2) (C := 1) fun i => ⟨fun n => if n = i then 1 else 0, 0⟩)
    (id : Unit → Unit) (fun _ _ => ⟨fun _ _ => 1, fun _ => 1⟩) 2
    (⟨fun _ => 1, .noRows, fun _ _ => 0⟩, (), some none)).1).beta =
    .matrix fun _ _ => .fin (1 / 2) := by
  simp [epoch, seqEpoch, List.range_succ, trainDoc, unsupervised, uDoc, Buf.add, trainBatch, uM, uBeta, quot,
    scaled]
  funext k n
  fin_cases n <;> norm_num

end Verif.Train
