import Verif.Proofs.Aggregate
import Verif.Spec.Aggregate
import Verif.Proofs.Decide
import Verif.Model.MomentMetric
import Mathlib.Algebra.Field.Rat

/-! # C56, C57: aggregates

`Pushed ms c x c' e`: some execution of `Push(x)` on metrics `ms` in states `c` returned the error `e` and left the metrics in states `c'`;
`Valued`, `Cleared` alike. -/

set_option linter.unusedSectionVars false

namespace Verif.Props
open Verif Verif.Spec Verif.Aggregate

variable {σ A F : Type}

/-! ## C56 -/

/-- The value is delivered to every metric exactly once. -/
theorem C56_push_delivers (ms : List (Aggregate.Metric σ A F)) (c c' : Nat → σ) (x : A) (e : Option (List Err)) (h : Pushed ms c x c' e) :
    ∀ (i : Nat) (m : Aggregate.Metric σ A F), ms[i]? = some m → ∃ err, m.push (c i) x = .val (c' i, err) := by
  obtain ⟨k, t, hs, hr, rfl, _⟩ := h
  intro i m hm
  have := (returned_spec hs hr).1 i (List.getElem?_eq_some_iff.1 hm).1
  simp only [pushJob, hm] at this
  exact ⟨_, this⟩

/-- Two executions of `Push` end in the same states, and both report an error or none does. -/
theorem C56_push_deterministic (ms : List (Aggregate.Metric σ A F)) (c c₁ c₂ : Nat → σ) (x : A) (e₁ e₂ : Option (List Err))
    (h₁ : Pushed ms c x c₁ e₁) (h₂ : Pushed ms c x c₂ e₂) : c₁ = c₂ ∧ (e₁.isSome ↔ e₂.isSome) := by
  obtain ⟨k, t, hs, hr, rfl, rfl⟩ := h₁
  obtain ⟨k', t', hs', hr', rfl, rfl⟩ := h₂
  obtain ⟨a1, a2, l, a3, a4⟩ := returned_spec hs hr
  obtain ⟨b1, b2, l', b3, b4⟩ := returned_spec hs' hr'
  constructor
  · funext i
    by_cases hi : i < ms.length
    · have := (a1 i hi).symm.trans (b1 i hi)
      simp only [Go.val.injEq, Prod.mk.injEq, and_true] at this
      exact this
    · rw [a2 i (by omega), b2 i (by omega)]
  · have hfold : ∀ l : List Err, l.foldl addErr [] = l := by
      intro l
      suffices H : ∀ a : List Err, l.foldl addErr a = a ++ l by simpa using H []
      induction l with
      | nil => simp
      | cons y l ih => intro a; simp [ih, addErr]
    have hp := a3.trans b3.symm
    rw [hfold] at a4 b4
    simp only [pushResult, a4, b4]
    have : l = [] ↔ l' = [] := by rw [← List.length_eq_zero_iff, ← List.length_eq_zero_iff, hp.length_eq]
    by_cases c1 : l = []
    · rw [if_pos c1, if_pos (this.1 c1)]
    · rw [if_neg c1, if_neg (fun c2 => c1 (this.2 c2))]; simp

/-- `Clear` clears every metric, whatever the schedule. -/
theorem C56_clear (ms : List (Aggregate.Metric σ A F)) (c c' : Nat → σ) (h : Cleared ms c c') :
    ∀ (i : Nat) (m : Aggregate.Metric σ A F), ms[i]? = some m → m.clear (c i) = .val (c' i) := by
  obtain ⟨k, t, hs, hr, rfl⟩ := h
  intro i m hm
  have := (returned_spec hs hr).1 i (List.getElem?_eq_some_iff.1 hm).1
  simp only [clearJob, hm] at this
  rw [Go.bind_eq_val] at this
  obtain ⟨s, h1, h2⟩ := this
  simp only [Go.pure_eq, Go.val.injEq, Prod.mk.injEq] at h2
  rw [h1, h2.1]

/-- `Values` changes no metric. -/
theorem C56_values_state (ms : List (Aggregate.Metric σ A F)) (c c' : Nat → σ) (r : Except (List Err) (String → Option F))
    (h : Valued ms c c' r) : c' = c := by
  obtain ⟨k, t, hs, hr, rfl, _⟩ := h
  obtain ⟨a1, a2, _⟩ := returned_spec hs hr
  funext i
  by_cases hi : i < ms.length
  · have := a1 i hi
    simp only [valuesJob, List.getElem?_eq_getElem hi] at this
    rw [Go.bind_eq_val] at this
    obtain ⟨v, _, h2⟩ := this
    cases v with
    | error e => simp only [Go.pure_eq, Go.val.injEq, Prod.mk.injEq] at h2; exact h2.1.symm
    | ok v => simp only [Go.pure_eq, Go.val.injEq, Prod.mk.injEq] at h2; exact h2.1.symm
  · exact a2 i (by omega)

/-- Any history of calls that return leaves every metric in the state it would be in had it been used alone. -/
inductive History (ms : List (Aggregate.Metric σ A F)) : (Nat → σ) → List (AOp A) → (Nat → σ) → Prop where
  | nil (c : Nat → σ) : History ms c [] c
  | push {c c' c'' : Nat → σ} {x : A} {e : Option (List Err)} {ops : List (AOp A)} :
      Pushed ms c x c' e → History ms c' ops c'' → History ms c (.push x :: ops) c''
  | values {c c' c'' : Nat → σ} {r : Except (List Err) (String → Option F)} {ops : List (AOp A)} :
      Valued ms c c' r → History ms c' ops c'' → History ms c (.values :: ops) c''
  | clear {c c' c'' : Nat → σ} {ops : List (AOp A)} : Cleared ms c c' → History ms c' ops c'' → History ms c (.clear :: ops) c''

theorem C56_history (ms : List (Aggregate.Metric σ A F)) (c c' : Nat → σ) (ops : List (AOp A)) (h : History ms c ops c') :
    ∀ (i : Nat) (m : Aggregate.Metric σ A F), ms[i]? = some m → Go.runOps (alone m.push m.clear) (c i) ops = .val (c' i) := by
  induction h with
  | nil c => intro i m _; rfl
  | push hp _ ih =>
    intro i m hm
    obtain ⟨err, he⟩ := C56_push_delivers ms _ _ _ _ hp i m hm
    simp only [Go.runOps, alone, he]
    exact ih i m hm
  | values hv _ ih =>
    intro i m hm
    simp only [Go.runOps, alone]
    rw [← C56_values_state ms _ _ _ hv]
    exact ih i m hm
  | clear hc _ ih =>
    intro i m hm
    simp only [Go.runOps, alone, C56_clear ms _ _ hc i m hm]
    exact ih i m hm

/-- Every execution is finite, and if every metric's `Push` returns, it can stop only by returning: no schedule deadlocks or runs forever.
Some execution does return. -/
theorem C56_push_returns (ms : List (Aggregate.Metric σ A F)) (c : Nat → σ) (x : A)
    (hv : ∀ (i : Nat) (m : Aggregate.Metric σ A F), ms[i]? = some m → ∃ r, m.push (c i) x = .val r) :
    (∃ c' e, Pushed ms c x c' e) ∧
    ∀ k t, Steps ms.length (pushJob ms x) addErr k (St.init c []) t →
      k ≤ 7 * ms.length + 2 ∧ t.crashed = false ∧ (t.returned = false → ∃ u, Step ms.length (pushJob ms x) addErr t u) := by
  have hjob : ∀ i, i < ms.length → ∃ r, pushJob ms x i (c i) = .val r := by
    intro i hi
    obtain ⟨r, hr⟩ := hv i ms[i] (List.getElem?_eq_getElem hi)
    exact ⟨r, by simp only [pushJob, List.getElem?_eq_getElem hi]; exact hr⟩
  have hh : ∀ i, i < ms.length → pushJob ms x i (c i) ≠ .hang := by
    intro i hi; obtain ⟨r, hr⟩ := hjob i hi; rw [hr]; simp
  have hc : ∀ k t, Steps ms.length (pushJob ms x) addErr k (St.init c []) t → t.crashed = false := by
    intro k t hs
    obtain ⟨log, h⟩ := Inv.steps hs
    cases e : t.crashed with
    | false => rfl
    | true =>
      obtain ⟨i, hi, hp⟩ := h.crashed e
      obtain ⟨r, hr⟩ := hjob i hi
      rw [hr] at hp; cases hp
  constructor
  · obtain ⟨k, u, hs, hu⟩ := exists_end (add := addErr) (s0 := ([] : List Err)) hh _ 0 _ (.refl _) (Nat.le_refl _)
    rcases hu with hu | hu
    · exact ⟨_, _, k, u, hs, hu, rfl, rfl⟩
    · rw [hc k u hs] at hu; cases hu
  · intro k t hs
    obtain ⟨log, h⟩ := Inv.steps hs
    exact ⟨by have := steps_bound hs; omega, hc k t hs, fun hr => h.progress hh hr (hc k t hs)⟩

/-- A metric that panics (or never returns) keeps `Push` from returning, whatever the schedule. -/
theorem C56_push_panics (ms : List (Aggregate.Metric σ A F)) (c : Nat → σ) (x : A) (i : Nat) (m : Aggregate.Metric σ A F)
    (hm : ms[i]? = some m) (hp : ∀ r, m.push (c i) x ≠ .val r) (c' : Nat → σ) (e : Option (List Err)) : ¬ Pushed ms c x c' e := by
  intro h
  obtain ⟨err, he⟩ := C56_push_delivers ms c c' x e h i m hm
  exact hp _ he

/-! ## C57 -/

theorem foldl_addErr (l : List Err) : l.foldl addErr [] = l := by
  suffices H : ∀ a : List Err, l.foldl addErr a = a ++ l by simpa using H []
  induction l with
  | nil => simp
  | cons y l ih => intro a; simp [ih, addErr]

/-- The error a metric returns to `Push`. -/
def pushErr (m : Aggregate.Metric σ A F) (s : σ) (x : A) : Option Err :=
  match m.push s x with
  | .val (_, e) => e
  | _ => none

/-- The failures of `Push`, metric by metric. -/
def failures (ms : List (Aggregate.Metric σ A F)) (c : Nat → σ) (x : A) : List Err :=
  ms.zipIdx.filterMap (fun p => pushErr p.1 (c p.2) x)

theorem range_filterMap {α β : Type} (l : List α) (g : Nat → Option β) (f : α → Nat → Option β)
    (h : ∀ i (hi : i < l.length), g i = f l[i] i) : (List.range l.length).filterMap g = l.zipIdx.filterMap (fun p => f p.1 p.2) := by
  have : l.zipIdx.map Prod.snd = List.range l.length := by
    rw [List.zipIdx_eq_zip_range', List.map_snd_zip (by simp), List.range_eq_range']
  rw [← this, List.filterMap_map]
  apply List.filterMap_congr
  intro p hp
  obtain ⟨h1, h2⟩ := List.mem_zipIdx' hp
  simp only [Function.comp]
  rw [h p.2 h1, ← h2]

/-- `Push` returns no error iff no metric failed; otherwise the error consists of all failures, in some order. -/
theorem C57_push (ms : List (Aggregate.Metric σ A F)) (c c' : Nat → σ) (x : A) (e : Option (List Err)) (h : Pushed ms c x c' e) :
    (e = none ↔ failures ms c x = []) ∧ ∀ es, e = some es → es.Perm (failures ms c x) := by
  obtain ⟨k, t, hs, hr, rfl, rfl⟩ := h
  obtain ⟨a1, a2, l, a3, a4⟩ := returned_spec hs hr
  rw [foldl_addErr] at a4
  have hf : (List.range ms.length).filterMap (outOf (pushJob ms x) c) = failures ms c x := by
    apply range_filterMap ms _ (fun m i => pushErr m (c i) x)
    intro i hi
    simp only [outOf, pushErr, pushJob, List.getElem?_eq_getElem hi]
    rcases ms[i].push (c i) x with ⟨_, _⟩ | _ | _ <;> rfl
  rw [hf] at a3
  simp only [pushResult, a4]
  by_cases c1 : l = []
  · rw [if_pos c1]
    subst c1
    exact ⟨⟨fun _ => a3.nil_eq.symm, fun _ => rfl⟩, fun es h => by cases h⟩
  · rw [if_neg c1]
    refine ⟨⟨fun h => (by cases h), fun h => absurd (h ▸ a3).eq_nil c1⟩, fun es h => ?_⟩
    cases h; exact a3

/-- What a metric contributes to `Values`. -/
def valueOf (m : Aggregate.Metric σ A F) (s : σ) : Option (Except Err (String × F)) :=
  match m.value s with
  | .val (.ok v) => some (.ok (m.name, v))
  | .val (.error e) => some (.error e)
  | _ => none

/-- All contributions. -/
def valuesOf (ms : List (Aggregate.Metric σ A F)) (c : Nat → σ) : List (Except Err (String × F)) :=
  ms.zipIdx.filterMap (fun p => valueOf p.1 (c p.2))

/-- The errors among them. -/
def errsOf (l : List (Except Err (String × F))) : List Err := l.filterMap (fun | .error e => some e | .ok _ => none)

/-- The entries among them. -/
def entriesOf (l : List (Except Err (String × F))) : List (String × F) := l.filterMap (fun | .error _ => none | .ok p => some p)

theorem foldl_addValue (l : List (Except Err (String × F))) :
    (l.foldl addValue (fun _ => none, [])).2 = errsOf l ∧
    (∀ k v, (l.foldl addValue (fun _ => none, [])).1 k = some v → (k, v) ∈ entriesOf l) ∧
    (∀ k v, (k, v) ∈ entriesOf l → ∃ v', (l.foldl addValue (fun _ => none, [])).1 k = some v') := by
  suffices H : ∀ r : (String → Option F) × List Err,
      (l.foldl addValue r).2 = r.2 ++ errsOf l ∧
      (∀ k v, (l.foldl addValue r).1 k = some v → r.1 k = some v ∨ (k, v) ∈ entriesOf l) ∧
      (∀ k v, (r.1 k = some v ∨ (k, v) ∈ entriesOf l) → ∃ v', (l.foldl addValue r).1 k = some v') by
    obtain ⟨h1, h2, h3⟩ := H (fun _ => none, [])
    exact ⟨by simpa using h1, fun k v h => by simpa using h2 k v h, fun k v h => h3 k v (Or.inr h)⟩
  induction l with
  | nil =>
    intro r
    refine ⟨by simp [errsOf], fun k v h => Or.inl h, fun k v h => ?_⟩
    rcases h with h | h
    · exact ⟨v, h⟩
    · simp [entriesOf] at h
  | cons y l ih =>
    intro r
    obtain ⟨h1, h2, h3⟩ := ih (addValue r y)
    simp only [List.foldl_cons]
    cases y with
    | error e =>
      refine ⟨by rw [h1]; simp [addValue, errsOf], fun k v h => ?_, fun k v h => h3 k v ?_⟩
      · rcases h2 k v h with h | h
        · exact Or.inl h
        · exact Or.inr (by simpa [entriesOf] using h)
      · rcases h with h | h
        · exact Or.inl h
        · exact Or.inr (by simpa [entriesOf] using h)
    | ok p =>
      obtain ⟨k0, v0⟩ := p
      refine ⟨by rw [h1]; simp [addValue, errsOf], fun k v h => ?_, fun k v h => ?_⟩
      · rcases h2 k v h with h | h
        · by_cases e : k = k0
          · subst e
            simp only [addValue, Function.update_self, Option.some.injEq] at h
            subst h
            exact Or.inr (by simp [entriesOf])
          · simp only [addValue, Function.update_of_ne e] at h
            exact Or.inl h
        · refine Or.inr ?_
          simp only [entriesOf, List.filterMap_cons, List.mem_cons] at h ⊢
          exact Or.inr h
      · by_cases e : k = k0
        · subst e
          exact h3 k v0 (Or.inl (by simp [addValue]))
        · refine h3 k v ?_
          rcases h with h | h
          · exact Or.inl (by simp only [addValue, Function.update_of_ne e]; exact h)
          · refine Or.inr ?_
            simp only [entriesOf, List.filterMap_cons, List.mem_cons, Prod.mk.injEq] at h ⊢
            rcases h with ⟨h, _⟩ | h
            · exact absurd h e
            · exact h

theorem values_fold (ms : List (Aggregate.Metric σ A F)) (c c' : Nat → σ) (r : Except (List Err) (String → Option F)) (h : Valued ms c c' r) :
    ∃ l : List (Except Err (String × F)), l.Perm (valuesOf ms c) ∧
      r = if errsOf l ≠ [] then .error (errsOf l) else .ok (l.foldl addValue (fun _ => none, [])).1 := by
  obtain ⟨k, t, hs, hr, rfl, rfl⟩ := h
  obtain ⟨a1, a2, l, a3, a4⟩ := returned_spec hs hr
  have hf : (List.range ms.length).filterMap (outOf (valuesJob ms) c) = valuesOf ms c := by
    apply range_filterMap ms _ (fun m i => valueOf m (c i))
    intro i hi
    simp only [outOf, valueOf, valuesJob, List.getElem?_eq_getElem hi]
    rcases ms[i].value (c i) with (e | v) | _ | _ <;> rfl
  rw [hf] at a3
  refine ⟨l, a3, ?_⟩
  simp only [valuesResult, a4, (foldl_addValue l).1]

/-- `Values` returns an error iff some metric failed; the error consists of all failures, in some order. -/
theorem C57_values_errors (ms : List (Aggregate.Metric σ A F)) (c c' : Nat → σ) (r : Except (List Err) (String → Option F))
    (h : Valued ms c c' r) :
    ((∃ m, r = .ok m) ↔ errsOf (valuesOf ms c) = []) ∧ ∀ es, r = .error es → es.Perm (errsOf (valuesOf ms c)) := by
  obtain ⟨l, hp, rfl⟩ := values_fold ms c c' r h
  have he : (errsOf l).Perm (errsOf (valuesOf ms c)) := hp.filterMap _
  by_cases c1 : errsOf l = []
  · rw [if_neg (by simpa using c1)]
    rw [c1] at he
    exact ⟨⟨fun _ => he.nil_eq.symm, fun _ => ⟨_, rfl⟩⟩, fun es h => by cases h⟩
  · rw [if_pos c1]
    refine ⟨⟨fun ⟨m, h⟩ => (by cases h), fun h => absurd (h ▸ he).eq_nil c1⟩, fun es h => ?_⟩
    cases h; exact he

/-- Without errors and with distinct names the map has exactly the entries name ↦ value of the metrics, whatever the schedule. -/
theorem C57_values_map (ms : List (Aggregate.Metric σ A F)) (c c' : Nat → σ) (m : String → Option F) (h : Valued ms c c' (.ok m))
    (hd : (ms.map (·.name)).Nodup) : IsMap m (entriesOf (valuesOf ms c)) := by
  obtain ⟨l, hp, hr⟩ := values_fold ms c c' _ h
  have hm : m = (l.foldl addValue (fun _ => none, [])).1 := by
    split at hr
    · cases hr
    · cases hr; rfl
  subst hm
  have he : (entriesOf l).Perm (entriesOf (valuesOf ms c)) := hp.filterMap _
  obtain ⟨_, h2, h3⟩ := foldl_addValue l
  have huniq : ((entriesOf (valuesOf ms c)).map Prod.fst).Nodup := by
    have hsub : ∀ (L : List (Aggregate.Metric σ A F)) (k : Nat),
        ((entriesOf ((L.zipIdx k).filterMap (fun p => valueOf p.1 (c p.2)))).map Prod.fst).Sublist (L.map (·.name)) := by
      intro L
      induction L with
      | nil => intro k; simp [entriesOf]
      | cons m0 L ih =>
        intro k
        have ihk := ih (k + 1)
        simp only [List.zipIdx_cons, List.filterMap_cons, List.map_cons]
        cases ev : valueOf m0 (c k) with
        | none => exact ihk.cons _
        | some o =>
          cases o with
          | error e => simp only [entriesOf, List.filterMap_cons]; exact ihk.cons _
          | ok p =>
            have : p.1 = m0.name := by
              unfold valueOf at ev
              split at ev <;> cases ev
              rfl
            simp only [entriesOf, List.filterMap_cons, List.map_cons, this]
            exact ihk.cons_cons _
    exact (hsub ms 0).nodup hd
  intro k v
  constructor
  · intro hk; exact he.mem_iff.1 (h2 k v hk)
  · intro hk
    obtain ⟨v', hv'⟩ := h3 k v (he.mem_iff.2 hk)
    have := he.mem_iff.1 (h2 k v' hv')
    have := List.inj_on_of_nodup_map huniq hk this rfl
    cases this
    exact hv'

/-- In particular every metric's name is mapped to its value. -/
theorem C57_values_lookup (ms : List (Aggregate.Metric σ A F)) (c c' : Nat → σ) (m : String → Option F) (h : Valued ms c c' (.ok m))
    (hd : (ms.map (·.name)).Nodup) (i : Nat) (mi : Aggregate.Metric σ A F) (hi : ms[i]? = some mi) :
    ∃ v, mi.value (c i) = .val (.ok v) ∧ m mi.name = some v := by
  have hret : ∃ r, mi.value (c i) = .val r := by
    obtain ⟨k, t, hs, hr, _, _⟩ := h
    have := (returned_spec hs hr).1 i (List.getElem?_eq_some_iff.1 hi).1
    simp only [valuesJob, hi] at this
    rw [Go.bind_eq_val] at this
    obtain ⟨r, h1, _⟩ := this
    exact ⟨r, h1⟩
  obtain ⟨r, hr⟩ := hret
  have hmem : ∀ o, valueOf mi (c i) = some o → o ∈ valuesOf ms c := by
    intro o ho
    refine List.mem_filterMap.2 ⟨(mi, i), ?_, ho⟩
    rw [List.mk_mem_zipIdx_iff_getElem?]; exact hi
  cases r with
  | error e =>
    have h1 := (C57_values_errors ms c c' _ h).1.1 ⟨m, rfl⟩
    have : e ∈ errsOf (valuesOf ms c) := List.mem_filterMap.2 ⟨.error e, hmem _ (by simp [valueOf, hr]), rfl⟩
    rw [h1] at this; simp at this
  | ok v =>
    refine ⟨v, hr, (C57_values_map ms c c' m h hd _ _).2 ?_⟩
    exact List.mem_filterMap.2 ⟨.ok (mi.name, v), hmem _ (by simp [valueOf, hr]), rfl⟩

/-- Whatever the names: every entry of the map is the name and value of some metric, and every metric's name has an entry. (With equal names
which value it is depends on the schedule.) -/
theorem C57_values_any (ms : List (Aggregate.Metric σ A F)) (c c' : Nat → σ) (m : String → Option F) (h : Valued ms c c' (.ok m)) :
    (∀ k v, m k = some v → (k, v) ∈ entriesOf (valuesOf ms c)) ∧
    (∀ k v, (k, v) ∈ entriesOf (valuesOf ms c) → ∃ v', m k = some v') := by
  obtain ⟨l, hp, hr⟩ := values_fold ms c c' _ h
  have hm : m = (l.foldl addValue (fun _ => none, [])).1 := by
    split at hr
    · cases hr
    · cases hr; rfl
  subst hm
  have he : (entriesOf l).Perm (entriesOf (valuesOf ms c)) := hp.filterMap _
  obtain ⟨_, h2, h3⟩ := foldl_addValue l
  exact ⟨fun k v hk => he.mem_iff.1 (h2 k v hk), fun k v hk => h3 k v (he.mem_iff.2 hk)⟩

/-! ## A concrete aggregate: two metrics of package moment, of which the second has no core -/

section ex

/-- A metric of package moment behind the interface. -/
def momentMetric (name : String) : Aggregate.Metric (Moment.Metric ℚ) ℚ (XF ℚ) where
  push := Moment.Metric.push
  value := fun m => .val (Moment.Metric.value id id m)
  clear := fun m => .val (Moment.Metric.clear m)
  name := name

/-- The two states. -/
def exCells : Nat → Moment.Metric ℚ
  | 0 => (Moment.Metric.init (Moment.Metric.new (.mean 3))).1
  | _ => Moment.Metric.new (.mean 4)

/-- The two metrics. -/
def exMetrics : List (Aggregate.Metric (Moment.Metric ℚ) ℚ (XF ℚ)) := [momentMetric "a", momentMetric "b"]

/-- Some schedule of `Push(5)` returns (the hypotheses of C56 and C57 can be met), and the failures are those of the second metric. -/
example : (∃ c' e, Pushed exMetrics exCells 5 c' e) ∧ failures exMetrics exCells 5 = ["Core is not set"] := by
  refine ⟨(C56_push_returns exMetrics exCells 5 ?_).1, by decide +kernel⟩
  intro i m hm
  match i, hm with
  | 0, hm =>
    cases hm
    exact ⟨_, rfl⟩
  | 1, hm =>
    cases hm
    exact ⟨_, rfl⟩

example : (exMetrics.map (·.name)).Nodup := by decide +kernel
example : (errsOf (valuesOf exMetrics exCells)).length = 2 := by decide +kernel
example : ((Moment.Metric.push (exCells 0) 5) >>= fun r => pure (valuesOf [momentMetric "a"] (fun _ => r.1))) =
    .val [.ok ("a", .fin 5)] := by decide +kernel

end ex

end Verif.Props
