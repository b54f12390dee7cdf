import Verif.Proofs.JointCore

/-! # `joint.NewCore` and `joint.MergeConfigs` -/

set_option linter.unusedSectionVars false
set_option linter.unusedSimpArgs false

namespace Verif.Joint
open Verif Verif.Spec Verif.MathUtil

variable {K : Type} [Field K]

/-! ## NewCore -/

theorem forEach_zero (l : List Tuple) (m : Map K) :
    ∃ m', forEach (fun a m => Go.val (Map.set m (hash a) (0 : K), [])) l m = .val (m', []) ∧
      (∀ a ∈ l, m' (hash a) = some 0) ∧ ∀ k, (∀ a ∈ l, hash a ≠ k) → m' k = m k := by
  induction l generalizing m with
  | nil => exact ⟨m, rfl, by simp, fun _ _ => rfl⟩
  | cons a l ih =>
    obtain ⟨m', e, h1, h2⟩ := ih (Map.set m (hash a) 0)
    refine ⟨m', by simp [forEach, e], ?_, ?_⟩
    · intro b hb
      by_cases hbl : ∃ c ∈ l, hash c = hash b
      · obtain ⟨c, hc, he⟩ := hbl
        rw [← he, h1 c hc]
      · rcases List.mem_cons.1 hb with rfl | hb
        · rw [h2 _ (fun c hc he => hbl ⟨c, hc, he⟩)]
          simp [Map.set]
        · exact absurd ⟨b, hb, rfl⟩ hbl
    · intro k hk
      rw [h2 k (fun c hc => hk c (List.mem_cons_of_mem _ hc)), Map.set, Function.update_of_ne]
      exact (hk a List.mem_cons_self).symm

theorem initSums_val (ts : List Tuple) (m : Map K) :
    ∃ m', initSums ts m = .val m' ∧ (∀ t ∈ ts, ∀ a, Under a t → m' (hash a) = some 0) ∧
      ∀ k, (∀ t ∈ ts, ∀ a, Under a t → hash a ≠ k) → m' k = m k := by
  induction ts generalizing m with
  | nil => exact ⟨m, rfl, by simp, fun _ _ => rfl⟩
  | cons t ts ih =>
    obtain ⟨m1, e1, a1, b1⟩ := forEach_zero (visited false t) m
    obtain ⟨m2, e2, a2, b2⟩ := ih m1
    refine ⟨m2, by simp only [initSums, iter_eq, e1]; exact e2, ?_, ?_⟩
    · intro u hu a ha
      by_cases h : ∃ v ∈ ts, ∃ b, Under b v ∧ hash b = hash a
      · obtain ⟨v, hv, b, hb, he⟩ := h
        rw [← he, a2 v hv b hb]
      · rcases List.mem_cons.1 hu with rfl | hu
        · rw [b2 _ (fun v hv b hb he => h ⟨v, hv, b, hb, he⟩), a1 a (mem_visited.2 ha)]
        · exact absurd ⟨u, hu, a, ha, rfl⟩ h
    · intro k hk
      rw [b2 k (fun v hv => hk v (List.mem_cons_of_mem _ hv)), b1 k (fun a ha => hk t List.mem_cons_self a (mem_visited.1 ha))]

theorem mk_val (cfg : Config K) : ∃ c, mk cfg = .val c := by
  obtain ⟨m, e, _⟩ := initSums_val (cfg.sums.getD []) (fun _ => (none : Option K))
  unfold mk
  rw [e]
  exact ⟨_, rfl⟩

/-- The configurations `NewCore` accepts. `abs` wraps around; it is the sum of the exponents when that fits in an `int`. -/
def Valid [LinearOrder K] (cfg : Config K) : Prop :=
  (∃ w : Nat, cfg.window = some (w : Int) ∧ ∀ d, cfg.decay = some d → 0 < d ∧ d < 1 ∧ w = 0) ∧
  (∀ v, cfg.vars = some v → 2 ≤ v) ∧
  (∃ n : Nat, ∀ t ∈ cfg.sums.getD [], t.length = n ∧ 2 ≤ n ∧ (∀ v, cfg.vars = some v → (n : Int) = v) ∧ (∀ k ∈ t, 0 ≤ k) ∧ abs t ≠ 0) ∧
  (cfg.vars ≠ none ∨ cfg.sums.getD [] ≠ [])

theorem validateTuple_none {first : Nat} {vars : Option Int} {t : Tuple} : validateTuple first vars t = none ↔
    (t.length = first ∧ 2 ≤ t.length ∧ (∀ v, vars = some v → (t.length : Int) = v) ∧ (∀ k ∈ t, 0 ≤ k) ∧ abs t ≠ 0) := by
  unfold validateTuple
  split_ifs with h1 h2 h3 h4 h5
  · simp [h1]
  · simp only [reduceCtorEq, false_iff]; intro h; omega
  · simp only [reduceCtorEq, false_iff]
    intro h
    cases hv : vars with
    | none => simp [hv] at h3
    | some v =>
      simp only [hv, decide_eq_true_eq] at h3
      exact h3 (h.2.2.1 v hv)
  · simp only [reduceCtorEq, false_iff]
    intro h
    rw [List.any_eq_true] at h4
    obtain ⟨k, hk, hk'⟩ := h4
    have := h.2.2.2.1 k hk
    simp at hk'; omega
  · simp [h5]
  · simp only [true_iff]
    refine ⟨not_not.1 h1, by omega, ?_, ?_, h5⟩
    · intro v hv
      simp only [hv, decide_eq_true_eq] at h3
      exact not_not.1 h3
    · intro k hk
      by_contra hc
      exact h4 (List.any_eq_true.2 ⟨k, hk, by simpa using hc⟩)

theorem validateTuples_none {first : Nat} {vars : Option Int} {ts : List Tuple} :
    validateTuples first vars ts = none ↔ ∀ t ∈ ts, validateTuple first vars t = none := by
  induction ts with
  | nil => simp [validateTuples]
  | cons t ts ih =>
    simp only [validateTuples, List.mem_cons, forall_eq_or_imp]
    cases h : validateTuple first vars t with
    | none => simp [ih]
    | some e => simp

omit [Field K] in
theorem validateSums_none (cfg : Config K) : validateSums cfg = none ↔
    (∃ n : Nat, ∀ t ∈ cfg.sums.getD [], t.length = n ∧ 2 ≤ n ∧ (∀ v, cfg.vars = some v → (n : Int) = v) ∧ (∀ k ∈ t, 0 ≤ k) ∧ abs t ≠ 0) ∧
    (cfg.vars ≠ none ∨ cfg.sums.getD [] ≠ []) := by
  unfold validateSums
  have key : validateTuples ((cfg.sums.getD []).head?.map List.length |>.getD 0) cfg.vars (cfg.sums.getD []) = none ↔
      (∃ n : Nat, ∀ t ∈ cfg.sums.getD [], t.length = n ∧ 2 ≤ n ∧ (∀ v, cfg.vars = some v → (n : Int) = v) ∧ (∀ k ∈ t, 0 ≤ k) ∧ abs t ≠ 0) := by
    rw [validateTuples_none]
    constructor
    · intro h
      refine ⟨(cfg.sums.getD []).head?.map List.length |>.getD 0, fun t ht => ?_⟩
      obtain ⟨a, b, c, d⟩ := validateTuple_none.1 (h t ht)
      exact ⟨a, a ▸ b, by rw [← a]; exact c, d⟩
    · rintro ⟨n, h⟩ t ht
      rw [validateTuple_none]
      obtain ⟨a, b, c, d⟩ := h t ht
      refine ⟨?_, by omega, by rw [a]; exact c, d⟩
      cases hs : cfg.sums.getD [] with
      | nil => rw [hs] at ht; simp at ht
      | cons u us =>
        have := (h u (by rw [hs]; simp)).1
        simp [this, a]
  cases hv : validateTuples ((cfg.sums.getD []).head?.map List.length |>.getD 0) cfg.vars (cfg.sums.getD []) with
  | some e =>
    simp only [reduceCtorEq, false_iff]
    intro h
    rw [key.2 h.1] at hv; cases hv
  | none =>
    simp only
    have h1 := key.1 hv
    by_cases h : cfg.vars = none ∧ cfg.sums.getD [] = []
    · rw [if_pos h]; simp [h.1, h.2]
    · rw [if_neg h]
      simp only [true_iff]
      exact ⟨h1, by rwa [not_and_or] at h⟩

section
variable [LinearOrder K]

theorem validate_none (cfg : Config K) : validate 0 1 (setDefaults cfg) = none ↔ Valid cfg := by
  have hs := validateSums_none (setDefaults cfg)
  have hsums : (setDefaults cfg).sums.getD [] = cfg.sums.getD [] := rfl
  have hvars : (setDefaults cfg).vars = cfg.vars := rfl
  rw [hsums, hvars] at hs
  unfold validate Valid
  have hwin : (setDefaults cfg).window = cfg.window := rfl
  have hdec : (setDefaults cfg).decay = cfg.decay := rfl
  rw [hwin, hdec, hvars]
  cases hw : cfg.window with
  | none => simp
  | some w =>
    simp only
    by_cases hneg : w < 0
    · rw [if_pos hneg]
      simp only [reduceCtorEq, false_iff]
      rintro ⟨⟨w', h, -⟩, -⟩
      simp at h; omega
    · rw [if_neg hneg]
      obtain ⟨w', rfl⟩ : ∃ w' : Nat, w = w' := ⟨w.toNat, by omega⟩
      by_cases hv : ∃ v, cfg.vars = some v ∧ v < 2
      · obtain ⟨v, hv, hlt⟩ := hv
        simp only [hv, hlt, decide_true, if_true, reduceCtorEq, false_iff]
        rintro ⟨-, h, -⟩
        have := h v rfl
        omega
      · have hv' : ∀ v, cfg.vars = some v → 2 ≤ v := fun v h => not_lt.1 (fun c => hv ⟨v, h, c⟩)
        rw [if_neg]
        · unfold validateDecay
          cases hd : cfg.decay with
          | none =>
            simp only
            rw [hs]
            constructor
            · rintro ⟨h1, h2⟩; exact ⟨⟨w', rfl, by simp⟩, hv', h1, h2⟩
            · rintro ⟨-, -, h1, h2⟩; exact ⟨h1, h2⟩
          | some d =>
            simp only [goLe_eq]
            by_cases h1 : d ≤ 0
            · simp [h1, not_lt.2 h1]
            · by_cases h2 : 1 ≤ d
              · simp [h2, not_lt.2 h2]
              · by_cases h3 : w' = 0
                · subst h3
                  simp only [h1, h2, decide_false, Bool.or_self, Bool.false_eq_true, if_false, Nat.cast_zero, gt_iff_lt, lt_self_iff_false]
                  rw [hs]
                  constructor
                  · rintro ⟨g1, g2⟩
                    exact ⟨⟨0, rfl, fun d' h => by cases h; exact ⟨not_le.1 h1, not_le.1 h2, rfl⟩⟩, hv', g1, g2⟩
                  · rintro ⟨-, -, g1, g2⟩; exact ⟨g1, g2⟩
                · have h4 : (0 : Int) < w' := by omega
                  simp only [h1, h2, decide_false, Bool.or_self, Bool.false_eq_true, if_false, gt_iff_lt, h4, if_true, reduceCtorEq, false_iff]
                  rintro ⟨⟨w'', g1, g2⟩, -⟩
                  have := (g2 d rfl).2.2
                  simp at g1; omega
        · cases hvv : cfg.vars with
          | none => simp
          | some v =>
            have := hv' v hvv
            simp; omega

theorem newCore_iff (cfg : Config K) (c : Core K) : newCore cfg = .val (.ok c) ↔ Valid cfg ∧ mk (setDefaults cfg) = .val c := by
  unfold newCore
  rw [← validate_none]
  obtain ⟨c', e⟩ := mk_val (setDefaults cfg)
  cases h : validate 0 1 (setDefaults cfg) with
  | some e => simp
  | none => simp [e]

theorem newCore_total (cfg : Config K) : (∃ c, newCore cfg = .val (.ok c)) ∨ ∃ e, newCore cfg = .val (.error e) := by
  unfold newCore
  obtain ⟨c', e⟩ := mk_val (setDefaults cfg)
  cases h : validate 0 1 (setDefaults cfg) with
  | some e => exact Or.inr ⟨e, rfl⟩
  | none => simp only [e]; exact Or.inl ⟨c', rfl⟩

end

/-- A fresh core. -/
theorem mk_rep {cfg : Config K} {c : Core K} (h : mk cfg = .val c) {n : Nat} {ts : List (List Nat)} (hs : cfg.sums.getD [] = ts.map up)
    (hv : (varsOf cfg).toNat = n) :
    Rep n ts [] (List.replicate n 0) c ∧ c.count = 0 ∧ c.window = cfg.window.getD 0 ∧ c.decay = cfg.decay ∧
      c.queue = Ring.new (cfg.window.getD 0).toNat := by
  obtain ⟨m, e, h1, h2⟩ := initSums_val (cfg.sums.getD []) (fun _ => (none : Option K))
  unfold mk at h
  rw [e] at h
  simp only [Go.val.injEq] at h
  subst h
  rw [hs] at h1 h2
  refine ⟨⟨hs, by simp [hv], by simp, by simp, ?_, ?_, rfl⟩, rfl, rfl, rfl, rfl⟩
  · rintro a ⟨t, ht, hat⟩
    show m (hash (up a)) = _
    rw [h1 (up t) (List.mem_map_of_mem ht) (up a) (under_up.2 ⟨a, hat, rfl⟩)]
    simp [stored, wj]
  · intro k hk
    show m k = none
    rw [h2 k]
    intro t ht a ha
    obtain ⟨t', ht', rfl⟩ := List.mem_map.1 ht
    obtain ⟨b, hb, rfl⟩ := under_up.1 ha
    exact hk b ⟨t', ht', hb⟩

theorem mk_W {cfg : Config K} {c : Core K} (h : mk cfg = .val c) {n : Nat} {ts : List (List Nat)} (hs : cfg.sums.getD [] = ts.map up)
    (hv : (varsOf cfg).toNat = n) {w : Nat} (hw : cfg.window = some (w : Int)) (hd : cfg.decay = none) : W n ts w ([] : List (List K)) c := by
  obtain ⟨hr, h1, h2, h3, h4⟩ := mk_rep h hs hv
  refine ⟨by rw [h2, hw]; rfl, by rw [h3, hd], by rw [h4, hw]; simp [Ring.new], by rw [h4]; rfl, fun _ => by rw [h4]; simp [Ring.new],
    by rw [h1]; simp, ?_⟩
  rw [lastN_nil, jmeans_nil]; exact hr

theorem mk_D {cfg : Config K} {c : Core K} (h : mk cfg = .val c) {n : Nat} {ts : List (List Nat)} (hs : cfg.sums.getD [] = ts.map up)
    (hv : (varsOf cfg).toNat = n) (hw : cfg.window = some 0) {d : K} (hd : cfg.decay = some d) : D n ts d ([] : List (List K)) c := by
  obtain ⟨hr, h1, h2, h3, h4⟩ := mk_rep h hs hv
  refine ⟨by rw [h2, hw]; rfl, by rw [h3, hd], by rw [h1]; simp, by simp, ?_⟩
  rw [emeans_nil]; exact hr

/-! ## MergeConfigs -/

section merge
variable {F : Type} [LinearOrder F]

/-- The tuples of a configuration. -/
abbrev Config.tuples (c : Config F) : List Tuple := c.sums.getD []

/-- Two configurations that cannot share a core. -/
def Conflict (a b : Config F) : Prop :=
  (∃ w w', a.window = some w ∧ b.window = some w' ∧ w ≠ w') ∨ (∃ v v', a.vars = some v ∧ b.vars = some v' ∧ v ≠ v') ∨
  ∃ d d', a.decay = some d ∧ b.decay = some d' ∧ d ≠ d'

/-- The options of `m` are those set in `cs`, its tuples are those of `cs`. -/
structure Merged (m : Config F) (cs : List (Config F)) : Prop where
  tuples : m.tuples = (cs.map Config.tuples).flatten
  window : ∀ w, m.window = some w ↔ ∃ c ∈ cs, c.window = some w
  vars : ∀ v, m.vars = some v ↔ ∃ c ∈ cs, c.vars = some v
  decay : ∀ d, m.decay = some d ↔ ∃ c ∈ cs, c.decay = some d

theorem Merged.no_conflict {m : Config F} {cs : List (Config F)} (h : Merged m cs) {a b : Config F} (ha : a ∈ cs) (hb : b ∈ cs) :
    ¬ Conflict a b := by
  rintro (⟨w, w', h1, h2, hne⟩ | ⟨w, w', h1, h2, hne⟩ | ⟨w, w', h1, h2, hne⟩)
  · have e1 := (h.window w).2 ⟨a, ha, h1⟩
    rw [(h.window w').2 ⟨b, hb, h2⟩] at e1
    exact hne (Option.some.inj e1).symm
  · have e1 := (h.vars w).2 ⟨a, ha, h1⟩
    rw [(h.vars w').2 ⟨b, hb, h2⟩] at e1
    exact hne (Option.some.inj e1).symm
  · have e1 := (h.decay w).2 ⟨a, ha, h1⟩
    rw [(h.decay w').2 ⟨b, hb, h2⟩] at e1
    exact hne (Option.some.inj e1).symm

/-- Adding one optional value to a merged option. -/
theorem opt_snoc {A B : Type} {o : Option A} {f : B → Option A} {cs : List B} {c : B}
    (h : ∀ w, o = some w ↔ ∃ c ∈ cs, f c = some w) (o' : Option A)
    (ho : (f c = none ∧ o' = o) ∨ (∃ w, f c = some w ∧ o = none ∧ o' = some w) ∨ (∃ w, f c = some w ∧ o = some w ∧ o' = o)) :
    ∀ w, o' = some w ↔ ∃ x ∈ cs ++ [c], f x = some w := by
  intro w
  simp only [List.mem_append, List.mem_singleton, or_and_right, exists_or, exists_eq_left, ← h]
  rcases ho with ⟨h1, rfl⟩ | ⟨v, h1, h2, rfl⟩ | ⟨v, h1, h2, rfl⟩
  · simp [h1]
  · simp [h1, h2]
  · rw [h1, h2]; simp

theorem mergeWindow_spec {acc c : Config F} {seen : List (Config F)} (h : ∀ w, acc.window = some w ↔ ∃ c ∈ seen, c.window = some w) :
    (∃ m, mergeWindow acc c = .ok m ∧ (∀ w, m.window = some w ↔ ∃ x ∈ seen ++ [c], x.window = some w) ∧ m.sums = acc.sums ∧
      m.vars = acc.vars ∧ m.decay = acc.decay) ∨ ((∃ e, mergeWindow acc c = .error e) ∧ ∃ a ∈ seen, Conflict a c) := by
  unfold mergeWindow
  cases hw : c.window with
  | none => exact Or.inl ⟨acc, rfl, opt_snoc h _ (Or.inl ⟨hw, rfl⟩), rfl, rfl, rfl⟩
  | some w =>
    cases haw : acc.window with
    | none => exact Or.inl ⟨_, rfl, opt_snoc h _ (Or.inr (Or.inl ⟨w, hw, haw, rfl⟩)), rfl, rfl, rfl⟩
    | some w' =>
      simp only
      by_cases hww : w' = w
      · subst hww
        rw [if_pos rfl]
        exact Or.inl ⟨acc, rfl, opt_snoc h _ (Or.inr (Or.inr ⟨w', hw, haw, rfl⟩)), rfl, rfl, rfl⟩
      · rw [if_neg hww]
        obtain ⟨a, ha, hae⟩ := (h w').1 haw
        exact Or.inr ⟨⟨_, rfl⟩, a, ha, Or.inl ⟨w', w, hae, hw, hww⟩⟩

theorem mergeVars_spec {acc c : Config F} {seen : List (Config F)} (h : ∀ w, acc.vars = some w ↔ ∃ c ∈ seen, c.vars = some w) :
    (∃ m, mergeVars acc c = .ok m ∧ (∀ w, m.vars = some w ↔ ∃ x ∈ seen ++ [c], x.vars = some w) ∧ m.sums = acc.sums ∧
      m.window = acc.window ∧ m.decay = acc.decay) ∨ ((∃ e, mergeVars acc c = .error e) ∧ ∃ a ∈ seen, Conflict a c) := by
  unfold mergeVars
  cases hw : c.vars with
  | none => exact Or.inl ⟨acc, rfl, opt_snoc h _ (Or.inl ⟨hw, rfl⟩), rfl, rfl, rfl⟩
  | some w =>
    cases haw : acc.vars with
    | none => exact Or.inl ⟨_, rfl, opt_snoc h _ (Or.inr (Or.inl ⟨w, hw, haw, rfl⟩)), rfl, rfl, rfl⟩
    | some w' =>
      simp only
      by_cases hww : w' = w
      · subst hww
        rw [if_pos rfl]
        exact Or.inl ⟨acc, rfl, opt_snoc h _ (Or.inr (Or.inr ⟨w', hw, haw, rfl⟩)), rfl, rfl, rfl⟩
      · rw [if_neg hww]
        obtain ⟨a, ha, hae⟩ := (h w').1 haw
        exact Or.inr ⟨⟨_, rfl⟩, a, ha, Or.inr (Or.inl ⟨w', w, hae, hw, hww⟩)⟩

theorem mergeDecay_spec {acc c : Config F} {seen : List (Config F)} (h : ∀ w, acc.decay = some w ↔ ∃ c ∈ seen, c.decay = some w) :
    (∃ m, mergeDecay acc c = .ok m ∧ (∀ w, m.decay = some w ↔ ∃ x ∈ seen ++ [c], x.decay = some w) ∧ m.sums = acc.sums ∧
      m.window = acc.window ∧ m.vars = acc.vars) ∨ ((∃ e, mergeDecay acc c = .error e) ∧ ∃ a ∈ seen, Conflict a c) := by
  unfold mergeDecay
  cases hd : c.decay with
  | none => exact Or.inl ⟨acc, rfl, opt_snoc h _ (Or.inl ⟨hd, rfl⟩), rfl, rfl, rfl⟩
  | some w =>
    cases had : acc.decay with
    | none => exact Or.inl ⟨_, rfl, opt_snoc h _ (Or.inr (Or.inl ⟨w, hd, had, rfl⟩)), rfl, rfl, rfl⟩
    | some w' =>
      simp only [goEq_eq, decide_eq_true_eq]
      by_cases hww : w' = w
      · subst hww
        rw [if_pos rfl]
        exact Or.inl ⟨acc, rfl, opt_snoc h _ (Or.inr (Or.inr ⟨w', hd, had, rfl⟩)), rfl, rfl, rfl⟩
      · rw [if_neg hww]
        obtain ⟨a, ha, hae⟩ := (h w').1 had
        exact Or.inr ⟨⟨_, rfl⟩, a, ha, Or.inr (Or.inr ⟨w', w, hae, hd, hww⟩)⟩

theorem mergeStep_spec {acc : Config F} {seen : List (Config F)} (h : Merged acc seen) (c : Config F) :
    (∃ m, mergeStep acc c = .ok m ∧ Merged m (seen ++ [c])) ∨
    (∃ e, mergeStep acc c = .error e) ∧ ∃ a ∈ seen, Conflict a c := by
  unfold mergeStep
  have hk : (mergeSums acc c).tuples = ((seen ++ [c]).map Config.tuples).flatten := by
    rw [List.map_append, List.flatten_append, ← h.tuples]
    simp [mergeSums, Config.tuples]
  rcases mergeWindow_spec (acc := mergeSums acc c) (c := c) h.window with ⟨m, e, h1, h2, h3, h4⟩ | ⟨⟨e', e⟩, hc⟩
  · rw [e]
    simp only
    rcases mergeVars_spec (acc := m) (c := c) (by rw [h3]; exact h.vars) with ⟨m1, e1, g1, g2, g3, g4⟩ | ⟨⟨e', e⟩, hc⟩
    · rw [e1]
      simp only
      rcases mergeDecay_spec (acc := m1) (c := c) (by rw [g4, h4]; exact h.decay) with ⟨m2, e2, i1, i2, i3, i4⟩ | h'
      · exact Or.inl ⟨m2, e2, ⟨by rw [Config.tuples, i2, g2, h2]; exact hk, by rw [i3, g3]; exact h1, by rw [i4]; exact g1, i1⟩⟩
      · exact Or.inr h'
    · rw [e]
      exact Or.inr ⟨⟨_, rfl⟩, hc⟩
  · rw [e]
    exact Or.inr ⟨⟨_, rfl⟩, hc⟩

theorem mergeLoop_spec (cs : List (Config F)) {acc : Config F} {seen : List (Config F)} (h : Merged acc seen) :
    (∃ m, mergeLoop acc cs = .ok m ∧ Merged m (seen ++ cs)) ∨
    (∃ e, mergeLoop acc cs = .error e) ∧ ∃ a ∈ seen ++ cs, ∃ b ∈ seen ++ cs, Conflict a b := by
  induction cs generalizing acc seen with
  | nil => exact Or.inl ⟨acc, rfl, by simpa using h⟩
  | cons c cs ih =>
    simp only [mergeLoop]
    rcases mergeStep_spec h c with ⟨m, e, hm⟩ | ⟨⟨e', e⟩, a, ha, hc⟩
    · rw [e]
      simp only
      have := ih hm
      simpa using this
    · rw [e]
      exact Or.inr ⟨⟨_, rfl⟩, a, by simp [ha], c, by simp, hc⟩

theorem Leq.refl (m : Tuple) : Leq m m := by
  unfold Leq
  induction m with
  | nil => exact .nil
  | cons a m ih => exact .cons (le_refl _) ih

theorem Leq.trans {a b c : Tuple} (h1 : Leq a b) (h2 : Leq b c) : Leq a c := by
  unfold Leq at *
  induction h1 generalizing c with
  | nil => exact h2
  | cons h _ ih =>
    cases h2 with
    | cons h' t' => exact .cons (le_trans h h') (ih t')

theorem allLeq_val {m n : Tuple} (h : m.length = n.length) : ∃ b, allLeq m n = .val b ∧ (b = true ↔ Leq m n) := by
  unfold Leq
  induction m generalizing n with
  | nil => cases n with
    | nil => exact ⟨true, rfl, by simp⟩
    | cons => simp at h
  | cons a m ih => cases n with
    | nil => simp at h
    | cons b n =>
      simp only [allLeq]
      by_cases hab : a > b
      · rw [if_pos hab]
        refine ⟨false, rfl, by simp; omega⟩
      · rw [if_neg hab]
        obtain ⟨c, e, hc⟩ := ih (n := n) (by simpa using h)
        refine ⟨c, e, ?_⟩
        rw [hc, List.forall₂_cons]
        exact ⟨fun h => ⟨by omega, h⟩, fun h => h.2⟩

theorem leqEarlier_val {m : Tuple} {ns : List Tuple} (h : ∀ n ∈ ns, m.length = n.length) :
    ∃ b, leqEarlier m ns = .val b ∧ (b = true ↔ ∃ n ∈ ns, Leq m n) := by
  induction ns with
  | nil => exact ⟨false, rfl, by simp⟩
  | cons n ns ih =>
    obtain ⟨b, e, hb⟩ := allLeq_val (h n List.mem_cons_self)
    simp only [leqEarlier, e]
    cases b with
    | true => exact ⟨true, rfl, by simpa using Or.inl (hb.1 rfl)⟩
    | false =>
      obtain ⟨b', e', hb'⟩ := ih (fun n hn => h n (List.mem_cons_of_mem _ hn))
      refine ⟨b', e', ?_⟩
      rw [hb', List.exists_mem_cons_iff]
      constructor
      · exact Or.inr
      · rintro (h | h)
        · exact absurd (hb.2 h) (by simp)
        · exact h

/-- `simplifySums` on tuples of one length without hash collisions: nothing is lost, nothing is invented, nothing is repeated. -/
theorem simplifyLoop_val {len : Nat} (ms earlier acc : List Tuple) (hlen : ∀ m ∈ earlier ++ ms, m.length = len)
    (hinj : ∀ m ∈ earlier ++ ms, ∀ n ∈ earlier ++ ms, hash m = hash n → m = n)
    (hacc : ∀ m ∈ acc, m ∈ earlier) (hcov : ∀ m ∈ earlier, ∃ n ∈ acc, Leq m n) (hnd : acc.Nodup) (seen : List Int)
    (hseen : ∀ h, h ∈ seen ↔ ∃ n ∈ acc, hash n = h) :
    ∃ s, simplifyLoop earlier seen acc ms = .val s ∧ (∀ m ∈ s, m ∈ earlier ++ ms) ∧ (∀ m ∈ earlier ++ ms, ∃ n ∈ s, Leq m n) ∧ s.Nodup := by
  induction ms generalizing earlier acc seen with
  | nil => exact ⟨acc, rfl, by simpa using hacc, by simpa using hcov, hnd⟩
  | cons m ms ih =>
    have hassoc : earlier ++ m :: ms = (earlier ++ [m]) ++ ms := by simp
    rw [hassoc] at hlen hinj ⊢
    simp only [simplifyLoop]
    have hskip : (∃ n ∈ acc, Leq m n) → ∃ s, simplifyLoop (earlier ++ [m]) seen acc ms = .val s ∧ (∀ m' ∈ s, m' ∈ (earlier ++ [m]) ++ ms) ∧
        (∀ m' ∈ (earlier ++ [m]) ++ ms, ∃ n ∈ s, Leq m' n) ∧ s.Nodup := by
      intro hm
      refine ih _ _ hlen hinj (fun x hx => by simp [hacc x hx]) ?_ hnd seen hseen
      intro x hx
      rcases List.mem_append.1 hx with hx | hx
      · exact hcov x hx
      · rw [List.mem_singleton] at hx; rw [hx]; exact hm
    split_ifs with hs
    · obtain ⟨n, hn, he⟩ := (hseen _).1 hs
      have := hinj n (by simp [hacc n hn]) m (by simp) he
      exact hskip ⟨n, hn, this ▸ Leq.refl n⟩
    · obtain ⟨b, e, hb⟩ := leqEarlier_val (m := m) (ns := earlier) (fun n hn => by rw [hlen m (by simp), hlen n (by simp [hn])])
      rw [e]
      cases b with
      | true =>
        obtain ⟨n, hn, hmn⟩ := hb.1 rfl
        obtain ⟨n', hn', h'⟩ := hcov n hn
        exact hskip ⟨n', hn', hmn.trans h'⟩
      | false =>
        refine ih _ _ hlen hinj ?_ ?_ ?_ _ ?_
        · intro x hx
          rcases List.mem_append.1 hx with hx | hx
          · simp [hacc x hx]
          · simp [List.mem_singleton.1 hx]
        · intro x hx
          rcases List.mem_append.1 hx with hx | hx
          · obtain ⟨n, hn, h⟩ := hcov x hx
            exact ⟨n, by simp [hn], h⟩
          · rw [List.mem_singleton] at hx
            exact ⟨m, by simp, hx ▸ Leq.refl m⟩
        · rw [List.nodup_append]
          refine ⟨hnd, by simp, ?_⟩
          intro x hx y hy
          rw [List.mem_singleton] at hy
          rintro rfl
          exact hs ((hseen _).2 ⟨x, hx, by rw [hy]⟩)
        · intro h
          rw [List.mem_cons, hseen]
          simp only [List.mem_append, List.mem_singleton, or_and_right, exists_or, exists_eq_left]
          constructor
          · rintro (rfl | h)
            · exact Or.inr rfl
            · exact Or.inl h
          · rintro (h | rfl)
            · exact Or.inr h
            · exact Or.inl rfl

theorem simplifySums_val {len : Nat} {ms : List Tuple} (hlen : ∀ m ∈ ms, m.length = len)
    (hinj : ∀ m ∈ ms, ∀ n ∈ ms, hash m = hash n → m = n) :
    ∃ s, simplifySums ms = .val s ∧ (∀ m ∈ s, m ∈ ms) ∧ (∀ m ∈ ms, ∃ n ∈ s, Leq m n) ∧ s.Nodup := by
  have := simplifyLoop_val (len := len) ms [] [] (by simpa using hlen) (by simpa using hinj) (by simp) (by simp) (by simp) [] (by simp)
  simpa [simplifySums] using this

theorem mergeMany_error {cs : List (Config F)} (h : ∃ a ∈ cs, ∃ b ∈ cs, Conflict a b) : ∃ e, mergeMany cs = .val (.error e) := by
  have h0 : Merged (⟨some [], none, none, none⟩ : Config F) [] := ⟨by simp [Config.tuples], by simp, by simp, by simp⟩
  rcases mergeLoop_spec cs h0 with ⟨m, e, hm⟩ | ⟨⟨e', e⟩, -⟩
  · obtain ⟨a, ha, b, hb, hc⟩ := h
    exact absurd hc (hm.no_conflict (by simpa using ha) (by simpa using hb))
  · exact ⟨e', by simp [mergeMany, e]⟩

theorem mergeMany_ok {cs : List (Config F)} (h : ¬ ∃ a ∈ cs, ∃ b ∈ cs, Conflict a b) :
    ∃ m, Merged m cs ∧ mergeMany cs = (match simplifySums m.tuples with
      | .panic => .panic
      | .hang => .hang
      | .val s => .val (.ok { m with sums := some s })) := by
  have h0 : Merged (⟨some [], none, none, none⟩ : Config F) [] := ⟨by simp [Config.tuples], by simp, by simp, by simp⟩
  rcases mergeLoop_spec cs h0 with ⟨m, e, hm⟩ | ⟨-, hc⟩
  · exact ⟨m, by simpa using hm, by simp [mergeMany, e, Config.tuples]; rfl⟩
  · exact absurd (by simpa using hc) h

end merge
end Verif.Joint
