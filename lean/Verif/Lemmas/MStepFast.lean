import Verif.Lemmas.MStep
import Verif.Props.ClassWeights

/-! Auxiliary facts about the supervised maximisation steps. -/
namespace Verif.MStep

open MathUtils EStep Optim Finset

variable {K V C : ℕ}

/-- `descend` gives the result of the descent, which is unique. -/
theorem descend_eq_some {cfg : SupCfg} {pr : Problem K C} {eta e : Mat K C ℝ} {ev : List ℝ} :
    descend cfg pr eta = some (e, ev) ↔
      ∃ o, Minimize (ArmijoSearch (1 / 1000) (1 / 2)) pr (mStepProgress cfg.iterations cfg.tolerance) eta
        (none, []) e (o, ev) := by
  unfold descend
  split
  · rename_i h
    have hc := h.choose_spec
    constructor
    · intro e1
      simp only [Option.some.injEq, Prod.mk.injEq] at e1
      refine ⟨h.choose.2.1, ?_⟩
      rw [← e1.1, ← e1.2]
      exact hc
    · rintro ⟨o, ho⟩
      obtain ⟨h1, h2⟩ := hc.unique ho
      rw [h1, h2]
  · rename_i h
    constructor
    · intro e1; cases e1
    · rintro ⟨o, ho⟩
      exact absurd ⟨(e, o, ev), ho⟩ h

theorem descend_none {cfg : SupCfg} {pr : Problem K C} {eta : Mat K C ℝ} (h : pr.value eta = none) :
    descend cfg pr eta = none := by
  cases hd : descend cfg pr eta with
  | none => rfl
  | some r =>
    obtain ⟨o, v, hv, _⟩ := descend_eq_some.1 (show descend cfg pr eta = some (r.1, r.2) from hd)
    rw [h] at hv
    cases hv

theorem fastZbar_eq (gamma alpha : Vec K ℝ) : fastZbar gamma alpha = topicShare alpha gamma := by
  funext k
  unfold fastZbar topicShare
  by_cases h : ∑ j, (gamma j - alpha j) = 0
  · simp only [h, ne_eq, not_true_eq_false, if_true, if_false]
  · simp only [h, ne_eq, not_false_eq_true, if_true, if_false]

/-- The samples and labels stored are those of `ds`, the word statistics those of `all`. -/
structure FastIs (s : FastState K V) (ds : List (Vec K ℝ × Given K V)) (all : List (Given K V)) : Prop where
  buf : BufIs s.b all
  docs : s.docs = ds.length
  room : s.docs ≤ s.zbar.length
  len : s.y.length = s.zbar.length
  zbar : s.zbar.take s.docs = (ds.map fun d => topicShare d.1 d.2.2.gamma).map some
  y : s.y.take s.docs = (ds.map fun d => d.2.1.cls).map some

theorem FastIs.init : FastIs (FastState.init : FastState K V) [] [] :=
  ⟨rfl, rfl, Nat.le_refl _, rfl, rfl, rfl⟩

/-- A document given to `FastSupervisedMStep`: never undefined. -/
theorem FastIs.doc {s : FastState K V} {ds : List (Vec K ℝ × Given K V)} {all : List (Given K V)}
    (h : FastIs s ds all) (a : Vec K ℝ × Given K V) :
    ∃ s', fastDoc a.1 a.2.1 a.2.2 s = some s' ∧ FastIs s' (ds ++ [a]) (all ++ [a.2]) ∧
      s'.zbar.length = max s.zbar.length (s.docs + 1) := by
  obtain ⟨hb, hdocs, hroom, hlen, hz, hy⟩ := h
  obtain ⟨y', hy1, hy2, hy3⟩ := grow_set a.2.1.cls (hlen ▸ hroom) hy
  obtain ⟨z', hz1, hz2, hz3⟩ := grow_set (topicShare a.1 a.2.2.gamma) hroom hz
  rw [hlen] at hy1 hy2
  refine ⟨⟨uDoc a.2.1.words a.2.2.phi s.b, s.docs + 1, z', y'⟩, ?_, ⟨?_, ?_, ?_, ?_, ?_, ?_⟩, hz2⟩
  · simp only [fastDoc]
    rw [hy1, Option.bind_some, fastZbar_eq, hz1, Option.map_some]
  · exact hb.doc a.2
  · simp [hdocs]
  · simp only [hz2]; omega
  · rw [hz2, hy2]
  · simpa using hz3
  · simpa using hy3

/-- What `FastSupervisedMStep::m_step` does. -/
theorem FastIs.step {s : FastState K V} {ds : List (Vec K ℝ × Given K V)} {all : List (Given K V)}
    (h : FastIs s ds all) (cfg : SupCfg) (eta : Mat K C ℝ) :
    ∃ s', FastIs s' [] [] ∧ s'.zbar.length = s.docs ∧ (s.b = none ↔ s'.b = none) ∧
      fastM cfg eta s = (logisticDefault C (ds.map fun d => topicShare d.1 d.2.2.gamma)
        (ds.map fun d => d.2.1.cls) cfg.penalty).bind fun pr =>
      (descend cfg pr eta).map fun r => (⟨uBeta s.b, r.1, r.2.map some⟩, s') := by
  obtain ⟨hb, hdocs, hroom, hlen, hz, hy⟩ := h
  refine ⟨⟨(uM s.b).2, 0, resize s.zbar s.docs, resize s.y s.docs⟩,
    ⟨BufIs.clear, rfl, Nat.zero_le _, ?_, rfl, rfl⟩, resize_length _ _, ?_, ?_⟩
  · simp only [resize_length]
  · cases hs : s.b <;> simp [uM, Buf.clear]
  · simp only [fastM]
    rw [resize_of_le _ hroom, resize_of_le _ (hlen ▸ hroom), hz, hy, readAll_map_some, readAll_map_some,
      Option.bind_some, Option.bind_some]
    rfl

/-! ### SupervisedMStep -/

/-- The samples and labels stored are those of `ds`. -/
structure SupIs (s : SupState K V) (ds : List (Vec K ℝ × Given K V)) : Prop where
  buf : BufIs s.b (ds.map Prod.snd)
  docs : s.docs = ds.length
  room : s.docs ≤ s.zbar.length
  len : s.y.length = s.zbar.length
  lenVar : s.var.length = s.zbar.length
  zbar : s.zbar.take s.docs = (ds.map fun d => supZbar (numWords d.2.1.words) d.2.2.gamma d.1).map some
  var : s.var.take s.docs =
    (ds.map fun d => supVar (numWords d.2.1.words) d.2.1.words d.2.2.phi).map some
  y : s.y.take s.docs = (ds.map fun d => d.2.1.cls).map some

theorem SupIs.init : SupIs (SupState.init : SupState K V) [] :=
  ⟨rfl, rfl, Nat.le_refl _, rfl, rfl, rfl, rfl, rfl⟩

/-- A document given to `SupervisedMStep`. -/
theorem SupIs.doc {s : SupState K V} {ds : List (Vec K ℝ × Given K V)} (h : SupIs s ds)
    (a : Vec K ℝ × Given K V)
    (hN : numWords a.2.1.words * numWords a.2.1.words ≤ 2147483647) :
    ∃ s', supDoc a.1 a.2.1 a.2.2 s = some s' ∧ SupIs s' (ds ++ [a]) ∧
      s'.zbar.length = max s.zbar.length (s.docs + 1) := by
  obtain ⟨hb, hdocs, hroom, hlen, hlenv, hz, hv, hy⟩ := h
  obtain ⟨y', hy1, hy2, hy3⟩ := grow_set a.2.1.cls (hlen ▸ hroom) hy
  obtain ⟨z', hz1, hz2, hz3⟩ := grow_set (supZbar (numWords a.2.1.words) a.2.2.gamma a.1) hroom hz
  obtain ⟨v', hv1, hv2, hv3⟩ :=
    grow_set (supVar (numWords a.2.1.words) a.2.1.words a.2.2.phi) (hlenv ▸ hroom) hv
  rw [hlen] at hy1 hy2
  rw [hlenv] at hv1 hv2
  refine ⟨⟨uDoc a.2.1.words a.2.2.phi s.b, s.docs + 1, z', v', y'⟩, ?_, ⟨?_, ?_, ?_, ?_, ?_, ?_, ?_, ?_⟩,
    hz2⟩
  · simp only [supDoc]
    rw [if_neg (by omega), hy1, Option.bind_some, hz1, Option.bind_some, hv1, Option.map_some]
  · rw [List.map_append]; exact hb.doc a.2
  · simp [hdocs]
  · simp only [hz2]; omega
  · rw [hz2, hy2]
  · rw [hz2, hv2]
  · simpa using hz3
  · simpa using hv3
  · simpa using hy3

theorem supDoc_overflow {s : SupState K V} (a : Vec K ℝ × Given K V)
    (hN : 2147483647 < numWords a.2.1.words * numWords a.2.1.words) :
    supDoc a.1 a.2.1 a.2.2 s = none := by
  simp only [supDoc]
  rw [if_pos (by omega)]

/-- What `SupervisedMStep::m_step` does. -/
theorem SupIs.step {s : SupState K V} {ds : List (Vec K ℝ × Given K V)} (h : SupIs s ds) (cfg : SupCfg)
    (eta : Mat K C ℝ) :
    ∃ s', SupIs s' [] ∧ s'.zbar.length = s.docs ∧ (s.b = none ↔ s'.b = none) ∧
      supM cfg eta s = (supDescend cfg (ds.map fun d => supZbar (numWords d.2.1.words) d.2.2.gamma d.1)
        (ds.map fun d => supVar (numWords d.2.1.words) d.2.1.words d.2.2.phi)
        (ds.map fun d => d.2.1.cls) eta).map fun r => (⟨uBeta s.b, r.1, r.2⟩, s') := by
  obtain ⟨hb, hdocs, hroom, hlen, hlenv, hz, hv, hy⟩ := h
  refine ⟨⟨(uM s.b).2, 0, resize s.zbar s.docs, resize s.var s.docs, resize s.y s.docs⟩,
    ⟨BufIs.clear, rfl, Nat.zero_le _, ?_, ?_, rfl, rfl, rfl⟩, resize_length _ _, ?_, ?_⟩
  · simp only [resize_length]
  · simp only [resize_length]
  · cases hs : s.b <;> simp [uM, Buf.clear]
  · simp only [supM]
    rw [resize_of_le s.zbar hroom, resize_of_le s.y (hlen ▸ hroom), resize_of_le s.var (hlenv ▸ hroom), hz,
      hv, hy,
      readAll_map_some, readAll_map_some, readAll_map_some, Option.bind_some, Option.bind_some,
      Option.bind_some]
    rfl

/-- The variances of `SupervisedMStep` are positive semidefinite. -/
theorem supVar_psd {N : ℕ} {X : Vec V ℕ} {phi : Mat K V ℝ} {M : Mat K K ℝ} (h : supVar N X phi = some M) :
    PSD M := by
  unfold supVar at h
  split at h
  · cases h
  · simp only [Option.some.injEq] at h
    subst h
    intro u
    have : (∑ k, ∑ l, u k * ((∑ n, scaled phi X k n * scaled phi X l n) * (1 / ((N : ℝ) * N))) * u l) =
        (1 / ((N : ℝ) * N)) * ∑ n, (∑ k, u k * scaled phi X k n) ^ 2 := by
      rw [Finset.mul_sum]
      simp only [sq, Finset.mul_sum, Finset.sum_mul]
      rw [Finset.sum_comm' (t' := univ) (s' := fun _ => univ) (by simp)]
      rw [Finset.sum_comm]
      rw [Finset.sum_comm (s := (univ : Finset (Fin V)))]
      refine Finset.sum_congr rfl fun k _ => ?_
      rw [Finset.sum_comm]
      refine Finset.sum_congr rfl fun l _ => ?_
      refine Finset.sum_congr rfl fun n _ => ?_
      ring
    rw [this]
    positivity

end Verif.MStep
