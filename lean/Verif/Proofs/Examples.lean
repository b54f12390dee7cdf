import Verif.Model.Examples
import Verif.Proofs.Window
import Verif.Spec.Joint
import Mathlib.Data.List.Induction
import Mathlib.Tactic.Ring
import Mathlib.Tactic.FieldSimp
import Mathlib.Tactic.Linarith

/-! # Lemmas about the example programs: the loops over metrics and data, the table of values -/

set_option linter.unusedSimpArgs false

namespace Verif.Examples
open Verif Verif.Spec

variable {M I V : Type}

theorem Table.get_set {V : Type} (t : Table V) (k k' : String) (v : V) :
    (t.set k v).get k' = if k' = k then some v else t.get k' := by
  unfold Table.set Table.get
  rw [List.find?_cons]
  by_cases h : k' = k
  · subst h; simp
  · rw [if_neg h]
    have : (k == k') = false := by simpa using fun e => h e.symm
    simp only [this]
    congr 1
    induction t with
    | nil => rfl
    | cons p t ih =>
      by_cases hp : p.1 = k
      · have h1 : (p.1 == k') = false := by rw [hp]; exact this
        simp [hp, List.find?_cons, this, ih]
      · by_cases hq : p.1 = k'
        · simp [hp, hq, List.find?_cons, h]
        · simp [hp, hq, List.find?_cons, ih]

/-- `feed` follows a run of the metric that logs no error; `inj` embeds the states of the metric in those of the program. -/
theorem feed_of_run (o : Obj M I V) {N : Type} (inj : N → M) {step : N → MOp I → Go (N × Option Err)}
    (hstep : ∀ n x n' e, step n (.push x) = .val (n', e) → o.push (inj n) x = .val (inj n', e)) (xs : List I) :
    ∀ (n n' : N), Go.runOps (logged step) (n, []) (xs.map .push) = .val (n', []) → feed o (inj n) xs = .val (inj n', none) := by
  have grow : ∀ (xs : List (MOp I)) (p q : N × List Err), Go.runOps (logged step) p xs = .val q → ∃ l, q.2 = p.2 ++ l := by
    intro xs
    induction xs with
    | nil => intro p q h; cases h; exact ⟨[], by simp⟩
    | cons x xs ih =>
      intro p q h
      simp only [Go.runOps] at h
      cases hs : logged step p x with
      | panic => rw [hs] at h; cases h
      | hang => rw [hs] at h; cases h
      | val r =>
        rw [hs] at h
        obtain ⟨l, hl⟩ := ih r q h
        unfold logged at hs
        obtain ⟨s, -, h2⟩ := Go.bind_eq_val.1 hs
        cases h2
        exact ⟨_, by rw [hl, List.append_assoc]⟩
  induction xs with
  | nil => intro n n' h; cases h; rfl
  | cons x xs ih =>
    intro n n' h
    simp only [List.map_cons, Go.runOps] at h
    cases hs : step n (.push x) with
    | panic => simp [logged, hs] at h
    | hang => simp [logged, hs] at h
    | val r =>
      obtain ⟨m, e⟩ := r
      simp only [logged, hs, Go.val_bind, Go.pure_eq, List.nil_append] at h
      obtain ⟨l, hl⟩ := grow _ _ _ h
      have he : e = none := by
        cases e with
        | none => rfl
        | some e => simp at hl
      subst he
      simp only [feed, hstep n x m none hs]
      exact ih m n' h

theorem pushAll_ok (o : Obj M I V) (data : List I) {ms ms' : List M}
    (h : List.Forall₂ (fun m m' => feed o m data = .val (m', none)) ms ms') : pushAll o data ms = .val (ms', []) := by
  induction h with
  | nil => rfl
  | cons h _ ih => simp [pushAll, h, ih]

/-- `feed` keeps whatever `Push` keeps. -/
theorem feed_keeps (o : Obj M I V) {α : Type} (g : M → α) (hg : ∀ m x m' e, o.push m x = .val (m', e) → g m' = g m) :
    ∀ (xs : List I) (m m' : M) (e : Option Err), feed o m xs = .val (m', e) → g m' = g m
  | [], m, m', e, h => by cases h; rfl
  | x :: xs, m, m', e, h => by
    simp only [feed] at h
    split at h
    · cases h
    · cases h
    · rename_i m1 e1 hp
      cases h
      exact hg _ _ _ _ hp
    · rename_i m1 hp
      rw [feed_keeps o g hg xs m1 m' e h, hg _ _ _ _ hp]

theorem mem_set {t : Table V} {k : String} {v : V} {p : String × V} (h : p ∈ t.set k v) : p = (k, v) ∨ p ∈ t := by
  unfold Table.set at h
  rcases List.mem_cons.1 h with h | h
  · exact .inl h
  · exact .inr (List.mem_filter.1 h).1

theorem mem_of_get {t : Table V} {k : String} {v : V} (h : t.get k = some v) : (k, v) ∈ t := by
  unfold Table.get at h
  obtain ⟨p, hp, rfl⟩ := Option.map_eq_some_iff.1 h
  have h1 := List.find?_some hp
  have h2 := List.mem_of_find?_eq_some hp
  have : p.1 = k := by simpa using h1
  rw [← this]
  exact h2

theorem report_printed {finite : V → Prop} [DecidablePred finite] {t : Table V} (h : ∀ p ∈ t, finite p.2) : report finite t = .printed t :=
  if_pos h

theorem report_fatal {finite : V → Prop} [DecidablePred finite] {t : Table V} {k : String} {v : V} (h : t.get k = some v)
    (hv : ¬ finite v) : report finite t = .fatal :=
  if_neg (fun c => hv (c _ (mem_of_get h)))

/-- The table of the metrics `ms` with the values `vs`, started from `t`. -/
def table (o : Obj M I V) : List M → List V → Table V → Table V
  | m :: ms, v :: vs, t => table o ms vs (t.set (o.name m) v)
  | _, _, t => t

theorem values_table (o : Obj M I V) {ms : List M} {vs : List V} (h : List.Forall₂ (fun m v => o.value m = .val (.ok v)) ms vs) :
    ∀ t, values o ms t = .val (.ok (table o ms vs t)) := by
  induction h with
  | nil => intro t; rfl
  | cons h _ ih => intro t; simp only [values, h, table]; exact ih _

theorem finish_table (o : Obj M I V) (finite : V → Prop) [DecidablePred finite] {data : List I} {ms ms' : List M} {vs : List V}
    (h : List.Forall₂ (fun m m' => feed o m data = .val (m', none)) ms ms')
    (hv : List.Forall₂ (fun m v => o.value m = .val (.ok v)) ms' vs) :
    finish o finite ms data = .val (report finite (table o ms' vs [])) := by
  simp [finish, pushAll_ok o data h, values_table o hv]

/-- The end of `main` when all pushes succeed and the first metric has no value. -/
theorem finish_error (o : Obj M I V) (finite : V → Prop) [DecidablePred finite] {data : List I} {ms ms' : List M} {m : M} {e : Err}
    (h : List.Forall₂ (fun m m' => feed o m data = .val (m', none)) ms (m :: ms')) (hv : o.value m = .val (.error e)) :
    finish o finite ms data = .val .fatal := by
  simp [finish, pushAll_ok o data h, values, hv]

theorem mem_table (o : Obj M I V) : ∀ (ms : List M) (vs : List V) (t : Table V), ∀ p ∈ table o ms vs t, p ∈ t ∨ p.2 ∈ vs
  | m :: ms, v :: vs, t, p, h => by
    simp only [table] at h
    rcases mem_table o ms vs _ p h with h | h
    · rcases mem_set h with h | h
      · subst h; exact .inr (by simp)
      · exact .inl h
    · exact .inr (by simp [h])
  | [], _, _, p, h => .inl (by simpa [table] using h)
  | _ :: _, [], _, p, h => .inl (by simpa [table] using h)

theorem runs_of_each (o : Obj M I V) (data : List I) (finite : V → Prop) : ∀ (ms : List M),
    (∀ m ∈ ms, ∃ m' v, feed o m data = .val (m', none) ∧ o.value m' = .val (.ok v) ∧ finite v) →
    ∃ ms' vs, List.Forall₂ (fun m m' => feed o m data = .val (m', none)) ms ms' ∧
      List.Forall₂ (fun m v => o.value m = .val (.ok v)) ms' vs ∧ ∀ v ∈ vs, finite v
  | [], _ => ⟨[], [], .nil, .nil, by simp⟩
  | m :: ms, h => by
    obtain ⟨m', v, h1, h2, h3⟩ := h m (by simp)
    obtain ⟨ms', vs, h4, h5, h6⟩ := runs_of_each o data finite ms (fun x hx => h x (by simp [hx]))
    refine ⟨m' :: ms', v :: vs, .cons h1 h4, .cons h2 h5, ?_⟩
    intro w hw
    rcases List.mem_cons.1 hw with rfl | hw
    · exact h3
    · exact h6 w hw

theorem runs_each (o : Obj M I V) (data : List I) {ms ms' : List M} (h : List.Forall₂ (fun m m' => feed o m data = .val (m', none)) ms ms') :
    ∀ {vs : List V}, List.Forall₂ (fun m v => o.value m = .val (.ok v)) ms' vs →
    ∀ m ∈ ms, ∃ m' v, feed o m data = .val (m', none) ∧ o.value m' = .val (.ok v) := by
  induction h with
  | nil => intro _ _ m hm; cases hm
  | cons h _ ih =>
    intro vs hv m hm
    cases hv with
    | cons h1 h2 =>
      rcases List.mem_cons.1 hm with rfl | hm
      · exact ⟨_, _, h, h1⟩
      · exact ih h2 m hm

theorem pushAll_inv (o : Obj M I V) (data : List I) : ∀ (ms ms' : List M), pushAll o data ms = .val (ms', []) →
    List.Forall₂ (fun m m' => feed o m data = .val (m', none)) ms ms'
  | [], _, h => by cases h; exact .nil
  | m :: ms, ms', h => by
    simp only [pushAll] at h
    split at h
    · cases h
    · cases h
    · rename_i m1 e1 hf
      split at h
      · cases h
      · cases h
      · rename_i ms1 es hp
        simp only [Go.val.injEq, Prod.mk.injEq, List.append_eq_nil_iff] at h
        obtain ⟨rfl, h1, rfl⟩ := h
        have : e1 = none := by cases e1 with
          | none => rfl
          | some e => simp at h1
        subst this
        exact .cons hf (pushAll_inv o data ms _ hp)

theorem values_inv (o : Obj M I V) : ∀ (ms : List M) (t t' : Table V), values o ms t = .val (.ok t') →
    ∃ vs, List.Forall₂ (fun m v => o.value m = .val (.ok v)) ms vs ∧ t' = table o ms vs t
  | [], t, t', h => by cases h; exact ⟨[], .nil, rfl⟩
  | m :: ms, t, t', h => by
    simp only [values] at h
    split at h
    · cases h
    · cases h
    · cases h
    · rename_i v hv
      obtain ⟨vs, h1, h2⟩ := values_inv o ms _ _ h
      exact ⟨v :: vs, .cons hv h1, h2⟩

theorem finish_inv (o : Obj M I V) (finite : V → Prop) [DecidablePred finite] {data : List I} {ms : List M} {t : Table V}
    (h : finish o finite ms data = .val (.printed t)) :
    ∃ ms' vs, List.Forall₂ (fun m m' => feed o m data = .val (m', none)) ms ms' ∧
      List.Forall₂ (fun m v => o.value m = .val (.ok v)) ms' vs ∧ t = table o ms' vs [] ∧ ∀ p ∈ t, finite p.2 := by
  unfold finish at h
  split at h
  · cases h
  · cases h
  · cases h
  · rename_i ms' hp
    split at h
    · cases h
    · cases h
    · cases h
    · rename_i t' hv
      obtain ⟨vs, h1, h2⟩ := values_inv o _ _ _ hv
      unfold report at h
      split_ifs at h with hf
      · cases h
        exact ⟨ms', vs, pushAll_inv o data _ _ hp, h1, h2, hf⟩
      · cases h

theorem table_absent (o : Obj M I V) (hname : ∀ m x m' e, o.push m x = .val (m', e) → o.name m' = o.name m) {data : List I} {k : String}
    {ms ms' : List M} (h : List.Forall₂ (fun m m' => feed o m data = .val (m', none)) ms ms') :
    ∀ {vs : List V}, List.Forall₂ (fun m v => o.value m = .val (.ok v)) ms' vs → (∀ m ∈ ms, o.name m ≠ k) →
    ∀ (t : Table V) {r : Option V}, t.get k = r → (table o ms' vs t).get k = r := by
  induction h with
  | nil => intro vs _ _ t r e; cases vs <;> exact e
  | cons h _ ih =>
    intro vs hv hk t r e
    cases hv with
    | cons h1 h2 =>
      simp only [table]
      refine ih h2 (fun m hm => hk m (by simp [hm])) _ ?_
      rw [Table.get_set, if_neg, e]
      rw [feed_keeps o o.name hname _ _ _ _ h]
      exact fun c => hk _ (by simp) c.symm

theorem table_last (o : Obj M I V) (hname : ∀ m x m' e, o.push m x = .val (m', e) → o.name m' = o.name m) {data : List I}
    {ms ms' : List M} (h : List.Forall₂ (fun m m' => feed o m data = .val (m', none)) ms ms') :
    ∀ {vs : List V}, List.Forall₂ (fun m v => o.value m = .val (.ok v)) ms' vs → ∀ {pre : List M} {m : M} {post : List M} {m' : M} {v : V},
    ms = pre ++ m :: post → (∀ x ∈ post, o.name x ≠ o.name m) → feed o m data = .val (m', none) → o.value m' = .val (.ok v) →
    ∀ t : Table V, (table o ms' vs t).get (o.name m) = some v := by
  induction h with
  | nil => intro vs _ pre m post m' v e; simp at e
  | cons h hs ih =>
    intro vs hv pre m post m' v e hl hf hv' t
    cases hv with
    | cons h1 h2 =>
      simp only [table]
      cases pre with
      | nil =>
        simp only [List.nil_append, List.cons.injEq] at e
        obtain ⟨rfl, rfl⟩ := e
        rw [hf] at h
        cases h
        rw [hv'] at h1
        cases h1
        refine table_absent o hname hs h2 hl _ ?_
        rw [Table.get_set, if_pos (feed_keeps o o.name hname _ _ _ _ hf).symm]
      | cons b pre =>
        simp only [List.cons_append, List.cons.injEq] at e
        exact ih h2 e.2 hl hf hv' _

theorem minmax_name {F : Type} [GoOrd F] (fmt : F → List Char) (O : MinMax.Ext F) (m : MinMax.Min.St F ⊕ MinMax.Max.St F) (x : F)
    (m' : MinMax.Min.St F ⊕ MinMax.Max.St F) (e : Option Err) (h : (minmaxObj fmt O).push m x = .val (m', e)) :
    (minmaxObj fmt O).name m' = (minmaxObj fmt O).name m := by
  cases m with
  | inl s =>
    obtain ⟨⟨s', e'⟩, h1, h2⟩ := Go.bind_eq_val.1 h
    cases h2
    have : s'.window = s.window := by
      simp only [MinMax.Min.push, MinMax.Min.evict] at h1
      split_ifs at h1 <;> grind
    simp [minmaxObj, this]
  | inr s =>
    obtain ⟨⟨s', e'⟩, h1, h2⟩ := Go.bind_eq_val.1 h
    cases h2
    have : s'.window = s.window := by
      simp only [MinMax.Max.push, MinMax.Max.evict] at h1
      split_ifs at h1 <;> grind
    simp [minmaxObj, this]

theorem quantile_push_keeps {F : Type} [GoOrd F] {st : Quant.Statistic F} {q q' : Quant.Quantile st} {x : F} {e : Option Err}
    (h : q.push x = .val (q', e)) : q'.window = q.window ∧ q'.interpolation = q.interpolation := by
  have hadd : ∀ {q q' : Quant.Quantile st} {e : Option Err}, Quant.Quantile.push.add x q = .val (q', e) →
      q'.window = q.window ∧ q'.interpolation = q.interpolation := by
    intro q q' e h
    unfold Quant.Quantile.push.add at h
    split at h <;> cases h
    exact ⟨rfl, rfl⟩
  have hput : ∀ {q q' : Quant.Quantile st} {e : Option Err}, Quant.Quantile.push.put x q = .val (q', e) →
      q'.window = q.window ∧ q'.interpolation = q.interpolation := by
    intro q q' e h
    unfold Quant.Quantile.push.put at h
    split at h
    · cases h
    · cases h
    · cases h; exact ⟨rfl, rfl⟩
    · have := hadd h; exact this
  unfold Quant.Quantile.push at h
  split_ifs at h
  · split at h
    · cases h
    · cases h
    · cases h; exact ⟨rfl, rfl⟩
    · split at h
      · cases h
      · cases h
      · have := hput h; exact this
  · exact hput h
  · exact hadd h

theorem heap_push_keeps {F : Type} [GoOrd F] {s s' : HeapMedian.HM F} {x : F} {e : Option Err}
    (h : HeapMedian.push s x = .val (s', e)) : s'.window = s.window := by
  have henq : ∀ {s s' : HeapMedian.HM F} {i : Nat} {e : Option Err}, HeapMedian.enqueue s i = .val (s', e) → s'.window = s.window := by
    intro s s' i e h
    unfold HeapMedian.enqueue at h
    split_ifs at h
    · split at h <;> cases h <;> rfl
    · cases h; rfl
  have hreb : ∀ {s : HeapMedian.HM F} {i : Nat} {r : HeapMedian.HM F × Nat}, HeapMedian.rebalance s i = .val r → r.1.window = s.window := by
    intro s i r h
    unfold HeapMedian.rebalance at h
    split_ifs at h
    · obtain ⟨a, -, h⟩ := Go.bind_eq_val.1 h
      obtain ⟨b, -, h⟩ := Go.bind_eq_val.1 h
      cases h; rfl
    · obtain ⟨a, -, h⟩ := Go.bind_eq_val.1 h
      obtain ⟨b, -, h⟩ := Go.bind_eq_val.1 h
      cases h; rfl
    · cases h; rfl
  have hins : ∀ {s : HeapMedian.HM F} {r : HeapMedian.HM F × Nat}, HeapMedian.insert s x = .val r → r.1.window = s.window := by
    intro s r h
    unfold HeapMedian.insert at h
    obtain ⟨a, -, h⟩ := Go.bind_eq_val.1 h
    split_ifs at h
    · obtain ⟨b, -, h⟩ := Go.bind_eq_val.1 h
      cases h; rfl
    · obtain ⟨b, -, h⟩ := Go.bind_eq_val.1 h
      cases h; rfl
  have hrep : ∀ {s r : HeapMedian.HM F} {i : Nat}, HeapMedian.replace s i x = .val r → r.window = s.window := by
    intro s r i h
    unfold HeapMedian.replace at h
    split_ifs at h
    all_goals
      obtain ⟨a, -, h⟩ := Go.bind_eq_val.1 h
      split_ifs at h
      all_goals
        obtain ⟨b, -, h⟩ := Go.bind_eq_val.1 h
        first
        | (cases h; rfl)
        | (obtain ⟨c, -, h⟩ := Go.bind_eq_val.1 h
           cases h; rfl)
  unfold HeapMedian.push at h
  split_ifs at h
  · split at h
    · cases h
    · cases h
    · cases h; rfl
    · obtain ⟨a, h1, h⟩ := Go.bind_eq_val.1 h
      obtain ⟨b, h2, h⟩ := Go.bind_eq_val.1 h
      rw [henq h, hreb h2, hrep h1]
  · obtain ⟨a, h1, h⟩ := Go.bind_eq_val.1 h
    obtain ⟨b, h2, h⟩ := Go.bind_eq_val.1 h
    rw [henq h, hreb h2, hins h1]

theorem quantile_name {F : Type} [GoOrd F] (fmt : F → List Char) (O : FOps F) (qt : F) {s t : Quant.Statistic F} (m : QMetric s t) (x : F)
    (m' : QMetric s t) (e : Option Err) (h : (quantileObj fmt O qt s t).push m x = .val (m', e)) :
    (quantileObj fmt O qt s t).name m' = (quantileObj fmt O qt s t).name m := by
  cases m with
  | median q =>
    obtain ⟨⟨q', e'⟩, h1, h2⟩ := Go.bind_eq_val.1 h
    cases h2
    simp [quantileObj, (quantile_push_keeps h1).1]
  | quantile q =>
    obtain ⟨⟨q', e'⟩, h1, h2⟩ := Go.bind_eq_val.1 h
    cases h2
    simp [quantileObj, (quantile_push_keeps h1).1, (quantile_push_keeps h1).2]
  | heap q =>
    obtain ⟨⟨q', e'⟩, h1, h2⟩ := Go.bind_eq_val.1 h
    cases h2
    simp [quantileObj, heap_push_keeps h1]

theorem joint_name {K : Type} [Field K] [LinearOrder K] (fmt : K → List Char) (r : K → K) (m : Joint.Metric K) (x : List K)
    (m' : Joint.Metric K) (e : Option Err) (h : (jointObj fmt r).push m x = .val (m', e)) : (jointObj fmt r).name m' = (jointObj fmt r).name m := by
  have : m'.kind = m.kind := by
    simp only [jointObj, Joint.Metric.push] at h
    split at h
    · cases h; rfl
    · split_ifs at h
      · cases h; rfl
      · split at h <;> cases h <;> rfl
  simp [jointObj, this]

theorem auto_name {K : Type} [Field K] [LinearOrder K] (fmt : K → List Char) (r : K → K) (m : Joint.Auto K) (x : K)
    (m' : Joint.Auto K) (e : Option Err) (h : (autoObj fmt r).push m x = .val (m', e)) : (autoObj fmt r).name m' = (autoObj fmt r).name m := by
  have hput : ∀ {a a' : Joint.Auto K} {e : Option Err}, Joint.Auto.put a x = .val (a', e) → a'.lag = a.lag ∧ a'.window = a.window := by
    intro a a' e h
    unfold Joint.Auto.put at h
    split at h <;> cases h <;> exact ⟨rfl, rfl⟩
  have hpair : ∀ {a a' : Joint.Auto K} {c : Joint.Core K} {e : Option Err}, Joint.Auto.pair a c x = .val (a', e) →
      a'.lag = a.lag ∧ a'.window = a.window := by
    intro a a' c e h
    unfold Joint.Auto.pair at h
    split at h
    · cases h
    · cases h
    · cases h; exact ⟨rfl, rfl⟩
    · split at h
      · cases h
      · cases h
      · cases h; exact ⟨rfl, rfl⟩
      · have := hput h; exact this
  have : m'.lag = m.lag ∧ m'.window = m.window := by
    simp only [autoObj, Joint.Auto.push] at h
    split at h
    · cases h; exact ⟨rfl, rfl⟩
    · split_ifs at h
      · split at h <;> cases h <;> exact ⟨rfl, rfl⟩
      · exact hpair h
      · exact hput h
  simp [autoObj, this.1, this.2]

/-! ## The data 0, 1, …, n-1 -/

theorem since_pushes {F : Type} (xs : List F) : since (xs.map MOp.push) = xs := by
  induction xs using List.reverseRecOn with
  | nil => rfl
  | append_singleton xs x ih => rw [List.map_append, List.map_singleton, since_push, ih]

@[simp] theorem counts_length (K : Type) [NatCast K] (n : Nat) : (counts K n).length = n := by simp [counts]

theorem counts_succ (K : Type) [NatCast K] (n : Nat) : counts K (n + 1) = counts K n ++ [(n : K)] := by
  simp [counts, List.range_succ]

section
variable {K : Type} [Field K] [CharZero K]

theorem sum_counts (n : Nat) : (counts K n).sum = n * (n - 1) / 2 := by
  induction n with
  | zero => simp [counts]
  | succ n ih => rw [counts_succ, List.sum_append, ih]; push_cast; simp; ring

theorem sum_sq_counts (n : Nat) (c : K) : ((counts K n).map (fun x => (x - c) ^ 2)).sum =
    n * (n - 1) * (2 * n - 1) / 6 - c * (n * (n - 1)) + n * c ^ 2 := by
  induction n with
  | zero => simp [counts]
  | succ n ih => rw [counts_succ, List.map_append, List.sum_append, ih]; push_cast; simp; ring

theorem mean_counts {n : Nat} (h : n ≠ 0) : mean (counts K n) = (n - 1) / 2 := by
  have : (n : K) ≠ 0 := Nat.cast_ne_zero.2 h
  rw [mean, sum_counts, counts_length]
  field_simp

theorem csum_counts (n : Nat) : csum 2 (counts K n) = n * (n ^ 2 - 1) / 12 := by
  rcases Nat.eq_zero_or_pos n with h | h
  · subst h; simp [csum, counts]
  · rw [csum, sum_sq_counts, mean_counts (by omega)]
    ring

omit [CharZero K] in
/-- The last five. -/
theorem lastN_counts (n : Nat) : lastN 5 (counts K (n + 5)) = [(n : K), n + 1, n + 2, n + 3, n + 4] := by
  have h : counts K (n + 5) = counts K n ++ [(n : K), n + 1, n + 2, n + 3, n + 4] := by
    simp only [counts_succ, show n + 5 = n + 4 + 1 from rfl]
    push_cast
    simp
  rw [h, lastN, if_neg (by decide), List.drop_append_of_le_length (by simp)]
  simp

theorem lastN_all {F : Type} {w : Nat} {xs : List F} (h : xs.length ≤ w) : lastN w xs = xs := by
  unfold lastN
  split_ifs
  · rfl
  · rw [show xs.length - w = 0 by omega, List.drop_zero]

theorem mean_five (n : Nat) : mean [(n : K), n + 1, n + 2, n + 3, n + 4] = n + 2 := by
  simp [mean]; ring

theorem csum_five (n k : Nat) : csum k [(n : K), n + 1, n + 2, n + 3, n + 4] = (-2) ^ k + (-1) ^ k + 0 ^ k + 1 ^ k + 2 ^ k := by
  rw [csum, mean_five]
  simp only [List.map_cons, List.map_nil, List.sum_cons, List.sum_nil]
  rw [show (n : K) - (n + 2) = -2 by ring, show (n : K) + 1 - (n + 2) = -1 by ring, show (n : K) + 2 - (n + 2) = 0 by ring,
    show (n : K) + 3 - (n + 2) = 1 by ring, show (n : K) + 4 - (n + 2) = 2 by ring]
  ring

end

end Verif.Examples
