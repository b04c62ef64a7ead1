import Verif.Model.Semi
import Verif.Props.EStep

/-! Property C45 of the semi-supervised expectation step. -/
set_option linter.unusedSectionVars false

namespace Verif.SemiStep

open Events

variable {I S L D R E : Type} [DecidableEq I] [DecidableEq L]

/-! ### Specification: each child on its own -/

/-- What one child is asked to do. -/
inductive Ask (D : Type) where
  | doc (d : D)
  | eStep

/-- The part of a history that concerns the child for unlabelled (`lab = false`) or labelled
documents. -/
def share (cls : D → ℤ) (lab : Bool) : List (Op L D) → List (Ask D)
  | [] => []
  | .doc d :: os => if decide (0 ≤ cls d) = lab then .doc d :: share cls lab os else share cls lab os
  | .eStep :: os => .eStep :: share cls lab os
  | .add _ :: os => share cls lab os
  | .remove _ :: os => share cls lab os

/-- The state of a step, used alone, after some requests. -/
def alone (c : Code I S D R E) (i : I) : S → List (Ask D) → S
  | s, [] => s
  | s, .doc d :: as => alone c i (c.doc i s d).1 as
  | s, .eStep :: as => alone c i (c.eStep i s).1 as

/-- The listeners of the semi-supervised step after a history. -/
def listeners : List L → List (Op L D) → List L
  | ls, [] => ls
  | ls, .add l :: os => listeners (ls ++ [l]) os
  | ls, .remove l :: os => listeners (ls.erase l) os
  | ls, _ :: os => listeners ls os

/-! ### Proofs -/

theorem simpleDispatch_eq (ls : List L) (e : E) : simpleDispatch ls e = ls.map fun l => (e, l) := by
  induction ls with
  | nil => rfl
  | cons l ls ih => rw [simpleDispatch, ih, List.map_cons]

theorem simpleRemove_eq (ls : List L) (l : L) : simpleRemove ls l = ls.erase l := by
  induction ls with
  | nil => rfl
  | cons x xs ih => rw [simpleRemove, List.erase_cons, ih]; by_cases h : x = l <;> simp [h]

/-- The state of a world in the course of a history: child `i` has state `st i`, its listeners are the
foreign ones and the forwarder, and those of the semi-supervised step are `own`. -/
structure Inv (s : Semi I L) (st : I → S) (foreign : I → List L) (own : List L) (w : World I S L) : Prop where
  state : ∀ i, (w.heap i).state = st i
  sup : (w.heap s.sup).listeners = foreign s.sup ++ [s.fwd]
  uns : (w.heap s.uns).listeners = foreign s.uns ++ [s.fwd]
  own : w.own = own

theorem construct_inv (s : Semi I L) (h : s.sup ≠ s.uns) (w : World I S L) :
    Inv s (fun i => (w.heap i).state) (fun i => (w.heap i).listeners) w.own (s.construct w) := by
  refine ⟨fun i => ?_, ?_, ?_, rfl⟩
  · simp only [Semi.construct, World.listen, World.set]
    by_cases h1 : i = s.uns
    · subst h1; simp [Function.update_of_ne h.symm]
    · rw [Function.update_of_ne h1]
      by_cases h2 : i = s.sup
      · subst h2; simp
      · rw [Function.update_of_ne h2]
  · simp [Semi.construct, World.listen, World.set, simpleAdd, Function.update_of_ne h]
  · simp [Semi.construct, World.listen, World.set, simpleAdd, Function.update_of_ne h.symm]

theorem Inv.set_state {s : Semi I L} {st : I → S} {foreign : I → List L} {own : List L} {w : World I S L}
    (h : Inv s st foreign own w) (i : I) (x : S) :
    Inv s (Function.update st i x) foreign own (w.set i { w.heap i with state := x }) := by
  have hl : ∀ j, ((w.set i { w.heap i with state := x }).heap j).listeners = (w.heap j).listeners := by
    intro j
    simp only [World.set]
    by_cases hj : j = i
    · subst hj; simp
    · rw [Function.update_of_ne hj]
  refine ⟨fun j => ?_, by rw [hl, h.sup], by rw [hl, h.uns], h.own⟩
  simp only [World.set]
  by_cases hj : j = i
  · subst hj; simp
  · rw [Function.update_of_ne hj, Function.update_of_ne hj, h.state]

/-- The events of a child arrive once at each listener of the semi-supervised step, after the other
listeners of the child. -/
def delivered (foreign own : List L) (es : List E) : List (E × L) :=
  es.flatMap fun e => (foreign ++ own).map fun l => (e, l)

theorem notify_eq {s : Semi I L} {own foreign : List L} (hf : s.fwd ∉ foreign) (e : E) :
    s.notify own (foreign ++ [s.fwd]) e = (foreign ++ own).map fun l => (e, l) := by
  unfold Semi.notify
  rw [simpleDispatch_eq (foreign ++ [s.fwd]), List.map_append, List.flatMap_append, List.map_append]
  congr 1
  · induction foreign with
    | nil => rfl
    | cons x xs ih =>
      simp only [List.mem_cons, not_or] at hf
      rw [List.map_cons, List.flatMap_cons, ih hf.2, if_neg (fun h => hf.1 h.symm)]
      rfl
  · simp [simpleDispatch_eq]

theorem notifyAll_eq {s : Semi I L} {st : I → S} {foreign : I → List L} {own : List L} {w : World I S L}
    (h : Inv s st foreign own w) (hf : ∀ i, s.fwd ∉ foreign i) {i : I} (hi : i = s.sup ∨ i = s.uns)
    (es : List E) : s.notifyAll w i es = delivered (foreign i) own es := by
  unfold Semi.notifyAll delivered
  have : (w.heap i).listeners = foreign i ++ [s.fwd] := by
    rcases hi with rfl | rfl
    · exact h.sup
    · exact h.uns
  rw [this, h.own]
  congr 1
  funext e
  exact notify_eq (hf i) e

/-- The child a document goes to. -/
def Semi.child (s : Semi I L) (cls : D → ℤ) (d : D) : I := if 0 ≤ cls d then s.sup else s.uns

theorem docEStep_eq (c : Code I S D R E) (cls : D → ℤ) (s : Semi I L) (w : World I S L) (d : D) :
    s.docEStep c cls w d = s.callDoc c w (s.child cls d) d := by
  unfold Semi.docEStep Semi.child
  by_cases h : cls d < 0
  · rw [if_pos h, if_neg (by omega)]
  · rw [if_neg h, if_pos (by omega)]

/-- The states of the children after a history. -/
def states (c : Code I S D R E) (cls : D → ℤ) (s : Semi I L) (st : I → S) (os : List (Op L D)) : I → S :=
  fun i => if i = s.sup then alone c i (st i) (share cls true os)
    else if i = s.uns then alone c i (st i) (share cls false os) else st i

theorem states_cons (c : Code I S D R E) (cls : D → ℤ) (s : Semi I L) (st : I → S)
    (o : Op L D) (os : List (Op L D)) :
    states c cls s st (o :: os) = states c cls s (states c cls s st [o]) os := by
  funext i
  unfold states
  by_cases h1 : i = s.sup
  · simp only [if_pos h1]
    cases o with
    | doc d =>
      simp only [share]
      by_cases h : 0 ≤ cls d <;> simp [h, alone]
    | eStep => simp [share, alone]
    | add l => simp [share, alone]
    | remove l => simp [share, alone]
  · simp only [if_neg h1]
    by_cases h2 : i = s.uns
    · simp only [if_pos h2]
      cases o with
      | doc d =>
        simp only [share]
        by_cases h : 0 ≤ cls d <;> simp [h, alone]
      | eStep => simp [share, alone]
      | add l => simp [share, alone]
      | remove l => simp [share, alone]
    · simp [h2]

theorem states_nil (c : Code I S D R E) (cls : D → ℤ) (s : Semi I L) (st : I → S) :
    states c cls s st [] = st := by
  funext i
  simp [states, share, alone]

theorem op_inv (c : Code I S D R E) (cls : D → ℤ) {s : Semi I L} (hne : s.sup ≠ s.uns) {st : I → S}
    {foreign : I → List L} {own : List L} {w : World I S L} (h : Inv s st foreign own w) (o : Op L D) :
    Inv s (states c cls s st [o]) foreign (listeners own [o]) (s.op c cls w o).1 := by
  cases o with
  | doc d =>
    simp only [Semi.op, docEStep_eq, Semi.callDoc, listeners]
    have := h.set_state (s.child cls d) (c.doc (s.child cls d) (w.heap (s.child cls d)).state d).1
    rw [h.state] at this ⊢
    convert this using 1
    funext i
    unfold states Semi.child
    by_cases hd : 0 ≤ cls d
    · rw [if_pos hd]
      by_cases h1 : i = s.sup
      · subst h1; simp [share, hd, alone]
      · rw [if_neg h1, Function.update_of_ne h1]
        simp [share, hd, alone]
    · rw [if_neg hd]
      by_cases h1 : i = s.uns
      · subst h1
        rw [if_neg hne.symm]
        simp [share, hd, alone]
      · rw [Function.update_of_ne h1]
        simp [share, hd, alone, h1]
  | eStep =>
    simp only [Semi.op, Semi.eStep, Semi.callEStep, listeners]
    have h1 := h.set_state s.sup (c.eStep s.sup (w.heap s.sup).state).1
    have h2 := h1.set_state s.uns
      (c.eStep s.uns ((w.set s.sup { w.heap s.sup with state := (c.eStep s.sup (w.heap s.sup).state).1 }).heap
        s.uns).state).1
    convert h2 using 1
    funext i
    rw [h1.state, h.state, Function.update_of_ne hne.symm]
    unfold states
    by_cases h1 : i = s.sup
    · subst h1
      rw [if_pos rfl, Function.update_of_ne hne]
      simp [share, alone]
    · rw [if_neg h1]
      by_cases h2 : i = s.uns
      · subst h2; simp [share, alone]
      · rw [if_neg h2, Function.update_of_ne h2, Function.update_of_ne h1]
  | add l =>
    refine ⟨fun i => ?_, h.sup, h.uns, ?_⟩
    · rw [Semi.op]; simp only [h.state]; simp [states, share, alone]
    · simp [Semi.op, simpleAdd, listeners, h.own]
  | remove l =>
    refine ⟨fun i => ?_, h.sup, h.uns, ?_⟩
    · rw [Semi.op]; simp only [h.state]; simp [states, share, alone]
    · simp [Semi.op, simpleRemove_eq, listeners, h.own]

theorem listeners_cons (own : List L) (o : Op L D) (os : List (Op L D)) :
    listeners own (o :: os) = listeners (listeners own [o]) os := by
  cases o <;> simp [listeners]

theorem run_inv (c : Code I S D R E) (cls : D → ℤ) {s : Semi I L} (hne : s.sup ≠ s.uns) {st : I → S}
    {foreign : I → List L} {own : List L} {w : World I S L} (h : Inv s st foreign own w) (os : List (Op L D)) :
    Inv s (states c cls s st os) foreign (listeners own os) (s.run c cls w os).1 := by
  induction os generalizing w st own with
  | nil => simpa [states_nil, listeners, Semi.run] using h
  | cons o os ih =>
    rw [states_cons c cls s, listeners_cons, Semi.run]
    exact ih (op_inv c cls hne h o)

theorem run_append (c : Code I S D R E) (cls : D → ℤ) (s : Semi I L) (w : World I S L) (os ps : List (Op L D)) :
    (s.run c cls w (os ++ ps)).2 =
      (s.run c cls w os).2 ++ (s.run c cls (s.run c cls w os).1 ps).2 := by
  induction os generalizing w with
  | nil => simp [Semi.run]
  | cons o os ih => rw [List.cons_append, Semi.run, Semi.run]; simp [ih]

/-- **C45** (documents).  Let a semi-supervised step be made of two different steps, and let anything
be done to it.  A document given to it then has the result that the right child, had it been used
alone for its share of the history, gives.  Every event the child emits arrives exactly once
at each listener the semi-supervised step has, in order, after any listeners the child has
itself. -/
theorem C45_documents (c : Code I S D R E) (cls : D → ℤ) (s : Semi I L) (hne : s.sup ≠ s.uns)
    (w : World I S L) (hf : ∀ i, s.fwd ∉ (w.heap i).listeners) (os : List (Op L D)) (d : D) :
    let i := if 0 ≤ cls d then s.sup else s.uns
    let r := c.doc i (alone c i (w.heap i).state (share cls (decide (0 ≤ cls d)) os)) d
    (s.run c cls (s.construct w) (os ++ [.doc d])).2 = (s.run c cls (s.construct w) os).2 ++
      [(some r.2.1, r.2.2.flatMap fun e =>
        ((w.heap i).listeners ++ listeners w.own os).map fun l => (e, l))] := by
  intro i r
  rw [run_append]
  congr 1
  have hI := run_inv c cls hne (construct_inv s hne w) os
  simp only [Semi.run, Semi.op, docEStep_eq, Semi.callDoc]
  have hi : s.child cls d = i := rfl
  rw [hi, hI.state, notifyAll_eq hI hf (by by_cases h : 0 ≤ cls d <;> simp [i, h])]
  have hr : c.doc i (states c cls s (fun i => (w.heap i).state) os i) d = r := by
    simp only [r]
    congr 1
    unfold states
    by_cases h : 0 ≤ cls d
    · simp [i, h]
    · simp [i, h, hne.symm]
  rw [hr]
  rfl

/-- **C45** (epochs).  `e_step` reaches both children, and their events are forwarded likewise. -/
theorem C45_epochs (c : Code I S D R E) (cls : D → ℤ) (s : Semi I L) (hne : s.sup ≠ s.uns)
    (w : World I S L) (hf : ∀ i, s.fwd ∉ (w.heap i).listeners) (os : List (Op L D)) :
    let r1 := c.eStep s.sup (alone c s.sup (w.heap s.sup).state (share cls true os))
    let r2 := c.eStep s.uns (alone c s.uns (w.heap s.uns).state (share cls false os))
    (s.run c cls (s.construct w) (os ++ [.eStep])).2 = (s.run c cls (s.construct w) os).2 ++
      [(none, (r1.2.flatMap fun e => ((w.heap s.sup).listeners ++ listeners w.own os).map fun l => (e, l)) ++
        r2.2.flatMap fun e => ((w.heap s.uns).listeners ++ listeners w.own os).map fun l => (e, l))] := by
  intro r1 r2
  rw [run_append]
  congr 1
  have hI := run_inv c cls hne (construct_inv s hne w) os
  simp only [Semi.run, Semi.op, Semi.eStep, Semi.callEStep]
  have h1 := hI.set_state s.sup (c.eStep s.sup ((s.run c cls (s.construct w) os).1.heap s.sup).state).1
  rw [notifyAll_eq hI hf (Or.inl rfl), notifyAll_eq h1 hf (Or.inr rfl), h1.state, hI.state,
    Function.update_of_ne hne.symm]
  simp only [states, if_true, if_neg hne.symm]
  rfl

/-- After the destructor nothing is left that refers to the semi-supervised step: the children have
the listeners they had before. -/
theorem C45_destroyed (c : Code I S D R E) (cls : D → ℤ) (s : Semi I L) (hne : s.sup ≠ s.uns)
    (w : World I S L) (hf : ∀ i, s.fwd ∉ (w.heap i).listeners) (os : List (Op L D)) :
    let w' := s.destroy (s.run c cls (s.construct w) os).1
    (w'.heap s.sup).listeners = (w.heap s.sup).listeners ∧
      (w'.heap s.uns).listeners = (w.heap s.uns).listeners := by
  intro w'
  have hI := run_inv c cls hne (construct_inv s hne w) os
  have er : ∀ i, simpleRemove ((w.heap i).listeners ++ [s.fwd]) s.fwd = (w.heap i).listeners := by
    intro i
    rw [simpleRemove_eq, List.erase_append_right _ (hf i)]
    simp
  constructor
  · simp only [w', Semi.destroy, World.unlisten, World.set]
    rw [Function.update_of_ne hne, Function.update_self, hI.sup]
    exact er s.sup
  · simp only [w', Semi.destroy, World.unlisten, World.set]
    rw [Function.update_self, Function.update_of_ne hne.symm, hI.uns]
    exact er s.uns

/-- The hypothesis that the children differ is needed: with one object as both, every event arrives
twice. -/
theorem C45_same_object_twice (c : Code I S D R E) (cls : D → ℤ) (s : Semi I L) (he : s.sup = s.uns)
    (w : World I S L) (hf : (w.heap s.sup).listeners = []) (d : D) :
    (s.run c cls (s.construct w) [.doc d]).2 =
      [(some (c.doc s.sup (w.heap s.sup).state d).2.1,
        (c.doc s.sup (w.heap s.sup).state d).2.2.flatMap fun e => (w.own ++ w.own).map fun l => (e, l))] := by
  have hi : s.child cls d = s.sup := by unfold Semi.child; simp [he]
  simp only [Semi.run, Semi.op, docEStep_eq, Semi.callDoc, hi]
  have hl : ((s.construct w).heap s.sup).listeners = [s.fwd, s.fwd] := by
    simp [Semi.construct, World.listen, World.set, he, simpleAdd]
    rw [← he, hf]
  have hs : ((s.construct w).heap s.sup).state = (w.heap s.sup).state := by
    simp [Semi.construct, World.listen, World.set, he]
  rw [Semi.notifyAll, hl, hs]
  congr 3
  funext e
  simp [Semi.notify, simpleDispatch, simpleDispatch_eq, Semi.construct, World.listen, World.set]

/-! ### With the steps of the library -/

open EStep in
/-- A labelled or unlabelled document with the draw for reporting and the model at that moment. -/
structure Given (K V C : ℕ) where
  draw : ℝ
  X : MathUtils.Vec V ℕ
  y : ℤ
  m : Model K V C

open EStep in
/-- The fast supervised step (`true`) and the unsupervised one (`false`); each emits one event per
document. -/
noncomputable def library {K V C : ℕ} (P : Prims) (cfg : Cfg) :
    Code Bool FastState (Given K V C) (Option (VP K V × Report)) Report where
  doc := fun i st d =>
    let r := if i then fast P cfg st.weight d.draw d.X d.y d.m else unsupervised P cfg d.draw d.X d.m
    (st, r, (r.map Prod.snd).toList)
  eStep := fun i st => (if i then st.eStep else st, [])

/-- The number of `e_step` calls in a history. -/
def epochs : List (Op L D) → ℕ
  | [] => 0
  | .eStep :: os => epochs os + 1
  | _ :: os => epochs os

open EStep in
theorem alone_library {K V C : ℕ} (P : Prims) (cfg : Cfg) (cls : Given K V C → ℤ) (st : FastState)
    (os : List (Op L (Given K V C))) :
    alone (library P cfg) true st (share cls true os) = { st with epochs := st.epochs + epochs os } := by
  induction os generalizing st with
  | nil => simp [share, alone, epochs]
  | cons o os ih =>
    cases o with
    | doc d =>
      simp only [share, epochs]
      split
      · rw [alone]; exact ih _
      · exact ih _
    | eStep =>
      simp only [share, alone, epochs]
      rw [show ((library P cfg).eStep true st).1 = st.eStep from rfl, ih]
      simp only [FastState.eStep, FastState.mk.injEq, true_and]
      omega
    | add l => simpa [share, epochs] using ih st
    | remove l => simpa [share, epochs] using ih st

open EStep in
/-- **C45** and **C44** together: semi-supervised with the fast supervised and the unsupervised step.
-/
theorem C45_library {K V C : ℕ} (P : Prims) (cfg : Cfg) (q : ℝ) (t : WeightType) (own : List L) (fwd : L)
    (os : List (Op L (Given K V C))) (d : Given K V C) :
    let s : Semi Bool L := ⟨true, false, fwd⟩
    let w : World Bool FastState L := ⟨fun _ => ⟨FastState.new q t, []⟩, own⟩
    (s.run (library P cfg) Given.y (s.construct w) (os ++ [.doc d])).2.getLast?.map Prod.fst =
      some (some (if 0 ≤ d.y then fast P cfg (weightAt q t (epochs os)) d.draw d.X d.y d.m
        else unsupervised P cfg d.draw d.X d.m)) := by
  intro s w
  rw [C45_documents (library P cfg) Given.y s (by simp [s]) w (by simp [w])]
  by_cases h : 0 ≤ d.y
  · simp only [h, decide_true, if_true, List.getLast?_append, List.getLast?_singleton, Option.some_or,
      Option.map_some, s]
    rw [alone_library]
    simp only [library, if_true, w]
    congr 3
    cases t <;> simp [FastState.weight, weightAt, FastState.new]
  · simp [h, s, library]

end Verif.SemiStep
