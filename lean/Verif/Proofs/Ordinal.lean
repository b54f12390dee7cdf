import Verif.Model.Quantile
import Verif.Model.HeapMedian
import Verif.Proofs.Sim

/-! # The containers look at the values only by comparing them

A map `φ` that preserves the three comparisons commutes with every operation. -/

set_option linter.unusedSectionVars false

namespace Verif

/-- `φ` preserves the comparisons. -/
structure OrdMap {F G : Type} [GoOrd F] [GoOrd G] (φ : F → G) : Prop where
  lt : ∀ a b, (φ a <ᵇ φ b) = (a <ᵇ b)
  le : ∀ a b, (φ a ≤ᵇ φ b) = (a ≤ᵇ b)
  eq : ∀ a b, (φ a =ᵇ φ b) = (a =ᵇ b)

/-- A strictly increasing map preserves the comparisons. -/
theorem OrdMap.of_strictMono {F G : Type} [LinearOrder F] [LinearOrder G] {φ : F → G} (h : ∀ a b, a < b → φ a < φ b) : OrdMap φ := by
  have hlt : ∀ a b, φ a < φ b ↔ a < b := fun a b => ⟨fun hl => by
    rcases lt_trichotomy a b with c | c | c
    · exact c
    · subst c; exact absurd hl (lt_irrefl _)
    · exact absurd (hl.trans (h _ _ c)) (lt_irrefl _), h a b⟩
  have heq : ∀ a b, φ a = φ b ↔ a = b := fun a b => ⟨fun he => by
    rcases lt_trichotomy a b with c | c | c
    · exact absurd he (h _ _ c).ne
    · exact c
    · exact absurd he (h _ _ c).ne', fun e => by rw [e]⟩
  refine ⟨fun a b => ?_, fun a b => ?_, fun a b => ?_⟩
  · simp [hlt]
  · simp only [goLe_eq, decide_eq_decide]; rw [← not_lt, ← not_lt, hlt]
  · simp [heq]

/-- Apply a function to the value returned. -/
def Go.image {α β : Type} (f : α → β) : Go α → Go β
  | .val a => .val (f a)
  | .panic => .panic
  | .hang => .hang

theorem Go.bind_image {α β γ δ : Type} {f : α → β} {g : γ → δ} {m : Go α} {m' : Go β} {k : α → Go γ} {k' : β → Go δ} (hm : m' = m.image f)
    (hk : ∀ a, k' (f a) = (k a).image g) : (m' >>= k') = (m >>= k).image g := by
  subst hm
  cases m with
  | val a => exact hk a
  | panic => rfl
  | hang => rfl

theorem Go.image_ite {α β : Type} {f : α → β} {p q : Prop} [Decidable p] [Decidable q] {a b : Go α} {a' b' : Go β} (hp : p ↔ q)
    (ha : a' = a.image f) (hb : b' = b.image f) : (if p then a' else b') = (if q then a else b).image f := by
  by_cases h : q
  · rw [if_pos h, if_pos (hp.2 h)]; exact ha
  · rw [if_neg h, if_neg (fun c => h (hp.1 c))]; exact hb

variable {F G : Type} [GoOrd F] [GoOrd G] {φ : F → G}

/-! ### AVL tree -/

namespace Avl.Node

/-- `φ` applied to the values. -/
def map (φ : F → G) : Node F → Node G
  | nil => nil
  | node l v r h s => node (l.map φ) (φ v) (r.map φ) h s

private theorem height_node (l : Node F) (v : F) (r : Node F) (h s : Int) : (node l v r h s).height = h := rfl
theorem height_map (n : Node F) : (n.map φ).height = n.height := by cases n <;> rfl
theorem size_map (n : Node F) : (n.map φ).size = n.size := by cases n <;> rfl

theorem heightDiff_map (n : Node F) : (n.map φ).heightDiff = n.heightDiff := by
  cases n with
  | nil => rfl
  | node => simp only [map, heightDiff, height_map]

theorem rotateLeft_map (n : Node F) : (n.map φ).rotateLeft = n.rotateLeft.image (map φ) := by
  rcases n with _ | ⟨l, v, _ | ⟨rl, rv, rr, rh, rs⟩, h, s⟩
  · rfl
  · rfl
  · simp only [map, rotateLeft, Go.image, height_node, height_map, size_map]

theorem rotateRight_map (n : Node F) : (n.map φ).rotateRight = n.rotateRight.image (map φ) := by
  rcases n with _ | ⟨_ | ⟨rl, rv, rr, rh, rs⟩, v, r, h, s⟩
  · rfl
  · rfl
  · simp only [map, rotateRight, Go.image, height_node, height_map, size_map]

theorem balance_map (n : Node F) : (n.map φ).balance = n.balance.image (map φ) := by
  cases n with
  | nil => rfl
  | node l v r h s =>
    simp only [map, balance, height_map, heightDiff_map]
    refine Go.image_ite Iff.rfl ?_ (Go.image_ite Iff.rfl ?_ rfl)
    · cases r.heightDiff with
      | panic => rfl
      | hang => rfl
      | val d =>
        exact Go.image_ite (p := d > 0) Iff.rfl (Go.bind_image (rotateRight_map r) fun r' => rotateLeft_map (node l v r' h s))
          (rotateLeft_map (node l v r h s))
    · cases l.heightDiff with
      | panic => rfl
      | hang => rfl
      | val d =>
        exact Go.image_ite (p := d < 0) Iff.rfl (Go.bind_image (rotateLeft_map l) fun l' => rotateRight_map (node l' v r h s))
          (rotateRight_map (node l v r h s))

theorem fixup_map (l : Node F) (v : F) (r : Node F) : fixup (l.map φ) (φ v) (r.map φ) = (fixup l v r).image (map φ) := by
  unfold fixup
  rw [← balance_map]
  simp only [map, height_map, size_map]

theorem add_map (hφ : OrdMap φ) (n : Node F) (x : F) : (n.map φ).add (φ x) = (n.add x).image (map φ) := by
  induction n with
  | nil => rfl
  | node l v r h s ihl ihr =>
    simp only [map, add]
    refine Go.image_ite (by rw [hφ.le]) ?_ ?_
    · exact Go.bind_image ihl fun l' => fixup_map l' v r
    · exact Go.bind_image ihr fun r' => fixup_map l v r'

theorem min_map (n : Node F) : (n.map φ).min = n.min.image φ := by
  induction n with
  | nil => rfl
  | node l v r h s ihl ihr =>
    cases l with
    | nil => rfl
    | node => exact ihl

theorem removeMin_map (n : Node F) : (n.map φ).removeMin = n.removeMin.image (map φ) := by
  induction n with
  | nil => rfl
  | node l v r h s ihl ihr =>
    cases l with
    | nil => rfl
    | node => exact Go.bind_image ihl fun l' => fixup_map l' v r

theorem remove_map (hφ : OrdMap φ) (n : Node F) (x : F) : (n.map φ).remove (φ x) = (n.remove x).image (map φ) := by
  induction n with
  | nil => rfl
  | node l v r h s ihl ihr =>
    rw [map, remove.eq_def, remove.eq_def (node l v r h s)]
    simp only
    refine Go.image_ite (by rw [hφ.lt]) ?_ (Go.image_ite (by rw [hφ.lt]) ?_ ?_)
    · exact Go.bind_image ihl fun l' => fixup_map l' v r
    · exact Go.bind_image ihr fun r' => fixup_map l v r'
    · cases l with
      | nil => rfl
      | node =>
        cases r with
        | nil => rfl
        | node =>
          exact Go.bind_image (min_map _) fun m => Go.bind_image (removeMin_map _) fun r' => fixup_map _ m r'

theorem select_map (n : Node F) (k : Int) : (n.map φ).select k = (n.select k).map φ := by
  induction n generalizing k with
  | nil => rfl
  | node l v r h s ihl ihr =>
    simp only [map, select, size_map, ihl, ihr]
    split
    · rfl
    · split <;> rfl

theorem rank_map (hφ : OrdMap φ) (n : Node F) (x : F) : (n.map φ).rank (φ x) = n.rank x := by
  induction n with
  | nil => rfl
  | node l v r h s ihl ihr => simp only [map, rank, size_map, ihl, ihr, hφ.lt]

end Avl.Node

/-! ### Red-black tree -/

namespace Rb.Node

/-- `φ` applied to the values. -/
def map (φ : F → G) : Node F → Node G
  | nil => nil
  | node l v r c s => node (l.map φ) (φ v) (r.map φ) c s

theorem color_map (n : Node F) : (n.map φ).color = n.color := by cases n <;> rfl
theorem size_map (n : Node F) : (n.map φ).size = n.size := by cases n <;> rfl
theorem isNil_map (n : Node F) : (n.map φ).isNil = n.isNil := by cases n <;> rfl
theorem leftG_map (n : Node F) : (n.map φ).leftG = n.leftG.image (map φ) := by cases n <;> rfl

theorem nodes_map (n : Node F) : (n.map φ).nodes = n.nodes := by
  induction n with
  | nil => rfl
  | node l v r c s ihl ihr => simp only [map, nodes, ihl, ihr]

theorem redRed_map (n : Node F) : (n.map φ).redRed = n.redRed := by
  rcases n with _ | ⟨l, v, r, _ | _, s⟩
  · rfl
  · rfl
  · simp only [map, redRed, color_map]

theorem blackBlack_map (n : Node F) : (n.map φ).blackBlack = n.blackBlack := by
  rcases n with _ | ⟨l, v, r, _ | _, s⟩
  · rfl
  · show Go.val (!(l.map φ).color) = Go.val (!l.color)
    rw [color_map]
  · rfl

theorem rotateLeft_map (n : Node F) : (n.map φ).rotateLeft = n.rotateLeft.image (map φ) := by
  rcases n with _ | ⟨l, v, _ | ⟨rl, rv, rr, rh, rs⟩, h, s⟩
  · rfl
  · rfl
  · simp only [map, rotateLeft, Go.image, size_map]

theorem rotateRight_map (n : Node F) : (n.map φ).rotateRight = n.rotateRight.image (map φ) := by
  rcases n with _ | ⟨_ | ⟨rl, rv, rr, rh, rs⟩, v, r, h, s⟩
  · rfl
  · rfl
  · simp only [map, rotateRight, Go.image, size_map]

theorem flipColors_map (n : Node F) : (n.map φ).flipColors = n.flipColors.image (map φ) := by
  rcases n with _ | ⟨_ | _, v, _ | _, h, s⟩ <;> rfl

theorem moveRedLeft_map (n : Node F) : (n.map φ).moveRedLeft = n.moveRedLeft.image (map φ) := by
  unfold moveRedLeft
  refine Go.bind_image (flipColors_map n) fun n => ?_
  cases n with
  | nil => rfl
  | node l v r c s =>
    refine Go.bind_image (leftG_map r) fun rl => ?_
    refine Go.image_ite (by rw [color_map]) ?_ rfl
    exact Go.bind_image (rotateRight_map r) fun r' => Go.bind_image (rotateLeft_map (node l v r' c s)) fun n => flipColors_map n

theorem moveRedRight_map (n : Node F) : (n.map φ).moveRedRight = n.moveRedRight.image (map φ) := by
  unfold moveRedRight
  refine Go.bind_image (flipColors_map n) fun n => ?_
  cases n with
  | nil => rfl
  | node l v r c s =>
    refine Go.bind_image (leftG_map l) fun ll => ?_
    refine Go.image_ite (by rw [color_map]) ?_ rfl
    exact Go.bind_image (rotateRight_map (node l v r c s)) fun n => flipColors_map n

theorem resize_map (n : Node F) : (n.map φ).resize = n.resize.image (map φ) := by
  cases n with
  | nil => rfl
  | node => simp only [map, resize, Go.image, size_map]

theorem balanceTail_map (n : Node F) : (n.map φ).balanceTail = n.balanceTail.image (map φ) := by
  unfold balanceTail
  refine Go.bind_image (f := map φ) ?_ fun n => Go.bind_image (f := map φ) ?_ fun n => resize_map n
  · cases n with
    | nil => rfl
    | node l v r c s => exact Go.image_ite (by rw [redRed_map]) (rotateRight_map (node l v r c s)) rfl
  · cases n with
    | nil => rfl
    | node l v r c s => exact Go.image_ite (by rw [color_map, color_map]) (flipColors_map (node l v r c s)) rfl

theorem addBalance_map (n : Node F) : (n.map φ).addBalance = n.addBalance.image (map φ) := by
  cases n with
  | nil => rfl
  | node l v r c s =>
    exact Go.bind_image (f := map φ) (Go.image_ite (by rw [color_map, color_map]) (rotateLeft_map (node l v r c s)) rfl) fun n => balanceTail_map n

theorem removeBalance_map (n : Node F) : (n.map φ).removeBalance = n.removeBalance.image (map φ) := by
  cases n with
  | nil => rfl
  | node l v r c s =>
    exact Go.bind_image (f := map φ) (Go.image_ite (by rw [color_map]) (rotateLeft_map (node l v r c s)) rfl) fun n => balanceTail_map n

theorem add_map (hφ : OrdMap φ) (n : Node F) (x : F) : (n.map φ).add (φ x) = (n.add x).image (map φ) := by
  induction n with
  | nil => rfl
  | node l v r c s ihl ihr =>
    simp only [map, add]
    refine Go.image_ite (by rw [hφ.le]) ?_ ?_
    · exact Go.bind_image ihl fun l' => addBalance_map (node l' v r c s)
    · exact Go.bind_image ihr fun r' => addBalance_map (node l v r' c s)

theorem contains_map (hφ : OrdMap φ) (n : Node F) (x : F) : (n.map φ).contains (φ x) = n.contains x := by
  induction n with
  | nil => rfl
  | node l v r c s ihl ihr => simp only [map, contains, ihl, ihr, hφ.lt, hφ.eq]

theorem min_map (n : Node F) : (n.map φ).min = n.min.image φ := by
  induction n with
  | nil => rfl
  | node l v r h s ihl ihr =>
    cases l with
    | nil => rfl
    | node => exact ihl

theorem removeMin_map (fuel : Nat) (n : Node F) : removeMin fuel (n.map φ) = (removeMin fuel n).image (map φ) := by
  induction fuel generalizing n with
  | zero => rfl
  | succ fuel ih =>
    rcases n with _ | ⟨_ | ⟨ll, lv, lr, lc, ls⟩, v, r, c, s⟩
    · rfl
    · rfl
    · rw [removeMin.eq_def (fuel + 1) (node (node ll lv lr lc ls) v r c s)]
      refine Go.bind_image (f := id) (m := blackBlack (node ll lv lr lc ls)) ?_ fun bb => ?_
      · refine (blackBlack_map (φ := φ) (node ll lv lr lc ls)).trans ?_
        cases blackBlack (node ll lv lr lc ls) <;> rfl
      · refine Go.bind_image (f := map φ) (Go.image_ite Iff.rfl (moveRedLeft_map (node (node ll lv lr lc ls) v r c s)) rfl) fun n => ?_
        cases n with
        | nil => rfl
        | node l v r c s => exact Go.bind_image (ih l) fun l' => removeBalance_map (node l' v r c s)

theorem blackBlack_image (n : Node F) : (n.map φ).blackBlack = n.blackBlack.image id := by
  rw [blackBlack_map]; cases n.blackBlack <;> rfl

theorem remove_map (hφ : OrdMap φ) (fuel : Nat) (n : Node F) (x : F) : remove fuel (n.map φ) (φ x) = (remove fuel n x).image (map φ) := by
  induction fuel generalizing n with
  | zero => rfl
  | succ fuel ih =>
    rw [remove.eq_def, remove.eq_def (fuel + 1) n]
    simp only
    refine Go.image_ite (by rw [contains_map hφ]) rfl ?_
    cases n with
    | nil => rfl
    | node l v r c s =>
      refine Go.image_ite (by rw [hφ.lt]) ?_ ?_
      · refine Go.bind_image (blackBlack_image l) fun bb => ?_
        refine Go.bind_image (f := map φ) (Go.image_ite Iff.rfl (moveRedLeft_map (node l v r c s)) rfl) fun n => ?_
        cases n with
        | nil => rfl
        | node l v r c s => exact Go.bind_image (ih l) fun l' => removeBalance_map (node l' v r c s)
      · refine Go.bind_image (f := map φ) (Go.image_ite (by rw [color_map]) (rotateRight_map (node l v r c s)) rfl) fun n => ?_
        cases n with
        | nil => rfl
        | node l v r c s =>
          refine Go.image_ite (by rw [hφ.eq, isNil_map]) rfl ?_
          refine Go.bind_image (blackBlack_image r) fun bb => ?_
          refine Go.bind_image (f := map φ) (Go.image_ite Iff.rfl (moveRedRight_map (node l v r c s)) rfl) fun n => ?_
          cases n with
          | nil => rfl
          | node l v r c s =>
            refine Go.image_ite (by rw [hφ.eq]) ?_ ?_
            · exact Go.bind_image (min_map r) fun m => Go.bind_image (removeMin_map fuel r) fun r' => removeBalance_map (node l m r' c s)
            · exact Go.bind_image (ih r) fun r' => removeBalance_map (node l v r' c s)

theorem select_map (n : Node F) (k : Int) : (n.map φ).select k = (n.select k).map φ := by
  induction n generalizing k with
  | nil => rfl
  | node l v r h s ihl ihr =>
    simp only [map, select, size_map, ihl, ihr]
    split
    · rfl
    · split <;> rfl

theorem rank_map (hφ : OrdMap φ) (n : Node F) (x : F) : (n.map φ).rank (φ x) = n.rank x := by
  induction n with
  | nil => rfl
  | node l v r h s ihl ihr => simp only [map, rank, size_map, ihl, ihr, hφ.lt]

end Rb.Node

/-! ### Skip list -/

namespace Skip

/-- `φ` applied to the value. -/
def SNode.map (φ : F → G) (n : SNode F) : SNode G := ⟨n.level, n.next, n.width, n.val.map φ⟩

namespace SkipList

/-- `φ` applied to the values. -/
def map (φ : F → G) (s : SkipList F) : SkipList G := ⟨fun a => (s.store a).map φ, s.alloc, s.maxLevel, s.length, s.draws, s.drawn⟩

theorem new_map (n : Nat) (d : Nat → Nat → Bool) : (Skip.new n d : SkipList F).map φ = Skip.new n d := rfl

theorem upd_map (s : SkipList F) (a : Nat) (n : SNode F) : (s.map φ).upd a (n.map φ) = (s.upd a n).map φ := by
  simp only [upd, map, SkipList.mk.injEq, and_true]
  funext b
  by_cases h : b = a
  · subst h; simp
  · simp [h]

theorem image_id {α : Type} (m : Go α) : m.image id = m := by cases m <;> rfl

theorem setNext_map (s : SkipList F) (a i : Nat) (p : Option Nat) : (s.map φ).setNext a i p = (s.setNext a i p).image (map φ) := by
  refine Go.image_ite Iff.rfl ?_ rfl
  exact congrArg Go.val (upd_map s a { s.store a with next := Function.update (s.store a).next i p })

theorem addWidth_map (s : SkipList F) (a i : Nat) (d : Int) : (s.map φ).addWidth a i d = (s.addWidth a i d).image (map φ) := by
  refine Go.image_ite Iff.rfl ?_ rfl
  exact congrArg Go.val (upd_map s a { s.store a with width := Function.update (s.store a).width i ((s.store a).width i + d) })

theorem nextAt_map (s : SkipList F) (a i : Nat) : (s.map φ).nextAt a i = s.nextAt a i := rfl
theorem widthAt_map (s : SkipList F) (a i : Nat) : (s.map φ).widthAt a i = s.widthAt a i := rfl

theorem valLt_map (hφ : OrdMap φ) (s : SkipList F) (a : Nat) (x : F) : (s.map φ).valLt a (φ x) = s.valLt a x := by
  simp only [valLt, map, SNode.map]
  cases (s.store a).val with
  | none => rfl
  | some v => exact hφ.lt v x

theorem valEq_map (hφ : OrdMap φ) (s : SkipList F) (a : Nat) (x : F) : (s.map φ).valEq a (φ x) = s.valEq a x := by
  simp only [valEq, map, SNode.map]
  cases (s.store a).val with
  | none => rfl
  | some v => exact hφ.eq v x

theorem equals_map (hφ : OrdMap φ) (s : SkipList F) (a b : Option Nat) : (s.map φ).equals a b = s.equals a b := by
  rcases a with _ | a <;> rcases b with _ | b
  · rfl
  · rfl
  · rfl
  · simp only [equals, map, SNode.map]
    rcases (s.store a).val with _ | v <;> rcases (s.store b).val with _ | w <;> first | rfl | exact hφ.eq v w

theorem walk_map (hφ : OrdMap φ) (s : SkipList F) (x : F) (i f a : Nat) : (s.map φ).walk (φ x) i f a = s.walk x i f a := by
  induction f generalizing a with
  | zero => rfl
  | succ f ih => simp only [walk, nextAt_map, valLt_map hφ, ih]

theorem prevsDown_map (hφ : OrdMap φ) (s : SkipList F) (x : F) (i a : Nat) : (s.map φ).prevsDown (φ x) i a = s.prevsDown x i a := by
  induction i generalizing a with
  | zero => rfl
  | succ i ih =>
    simp only [prevsDown, walk_map hφ, ih]
    rfl

theorem getPrevs_map (hφ : OrdMap φ) (s : SkipList F) (x : F) : (s.map φ).getPrevs (φ x) = s.getPrevs x := prevsDown_map hφ s x _ _

theorem linkAt_map (n : Nat) (prevs : List Nat) (s : SkipList F) (i : Nat) :
    linkAt n prevs (s.map φ) i = (linkAt n prevs s i).image (map φ) := by
  unfold linkAt
  refine Go.bind_image (image_id _).symm fun p => ?_
  refine Go.bind_image (image_id _).symm fun q => ?_
  exact Go.bind_image (setNext_map s n i q) fun s => setNext_map s p i (some n)

theorem bumpAt_map (prevs : List Nat) (s : SkipList F) (i : Nat) : bumpAt prevs (s.map φ) i = (bumpAt prevs s i).image (map φ) := by
  unfold bumpAt
  exact Go.bind_image (image_id _).symm fun p => addWidth_map s p i 1

theorem sumWidth_map (hφ : OrdMap φ) (s : SkipList F) (t : Option Nat) (j f : Nat) (c : Option Nat) (acc : Int) :
    (s.map φ).sumWidth t j f c acc = s.sumWidth t j f c acc := by
  induction f generalizing c acc with
  | zero => rfl
  | succ f ih =>
    simp only [sumWidth, equals_map hφ]
    split
    · rfl
    · cases c with
      | none => rfl
      | some c => simp only [widthAt_map, nextAt_map, ih]

theorem widthAtLevel_map (hφ : OrdMap φ) (n : Nat) (prevs : List Nat) (s : SkipList F) (i : Nat) :
    widthAtLevel n prevs (s.map φ) i = (widthAtLevel n prevs s i).image (map φ) := by
  unfold widthAtLevel
  refine Go.bind_image (image_id _).symm fun t => ?_
  refine Go.bind_image ((sumWidth_map hφ s _ _ _ _ _).trans (image_id _).symm) fun w => ?_
  refine Go.bind_image (addWidth_map s n i w) fun s => ?_
  refine Go.bind_image (image_id _).symm fun p => ?_
  refine Go.bind_image (image_id _).symm fun wn => ?_
  exact addWidth_map s p i (-wn)

theorem unlinkAt_map (n : Nat) (prevs : List Nat) (s : SkipList F) (i : Nat) :
    unlinkAt n prevs (s.map φ) i = (unlinkAt n prevs s i).image (map φ) := by
  unfold unlinkAt
  refine Go.bind_image (image_id _).symm fun p => ?_
  refine Go.image_ite Iff.rfl ?_ (addWidth_map s p i (-1))
  refine Go.bind_image (image_id _).symm fun q => ?_
  refine Go.bind_image (setNext_map s p i q) fun s => ?_
  refine Go.bind_image (image_id _).symm fun w => ?_
  exact addWidth_map s p i (w - 1)

theorem runOps_image {σ τ o : Type} {f : σ → τ} {step : σ → o → Go σ} {step' : τ → o → Go τ}
    (h : ∀ s x, step' (f s) x = (step s x).image f) (s : σ) (xs : List o) : Go.runOps step' (f s) xs = (Go.runOps step s xs).image f := by
  induction xs generalizing s with
  | nil => rfl
  | cons x xs ih =>
    simp only [Go.runOps, h]
    cases step s x with
    | val s' => exact ih s'
    | panic => rfl
    | hang => rfl

theorem add_map (hφ : OrdMap φ) (s : SkipList F) (x : F) : (s.map φ).add (φ x) = (s.add x).image (map φ) := by
  unfold add
  refine Go.bind_image ((getPrevs_map hφ s x).trans (image_id _).symm) fun prevs => ?_
  have e : ({ (s.map φ).upd (s.map φ).alloc ⟨(s.map φ).randLevel, fun _ => none, fun _ => 0, some (φ x)⟩ with
      alloc := (s.map φ).alloc + 1, drawn := (s.map φ).drawn + 1 } : SkipList G) =
      map φ { s.upd s.alloc ⟨s.randLevel, fun _ => none, fun _ => 0, some x⟩ with alloc := s.alloc + 1, drawn := s.drawn + 1 } := by
    have := congrArg SkipList.store (upd_map (φ := φ) s s.alloc ⟨s.randLevel, fun _ => none, fun _ => 0, some x⟩)
    exact congrArg (fun st => (⟨st, s.alloc + 1, s.maxLevel, s.length, s.draws, s.drawn + 1⟩ : SkipList G)) this
  refine Go.bind_image (m := Go.runOps (linkAt s.alloc prevs)
    { s.upd s.alloc ⟨s.randLevel, fun _ => none, fun _ => 0, some x⟩ with alloc := s.alloc + 1, drawn := s.drawn + 1 } (List.range s.randLevel))
    ((congrArg (fun z => Go.runOps (linkAt s.alloc prevs) z (List.range s.randLevel)) e).trans (runOps_image (linkAt_map _ _) _ _)) fun s1 => ?_
  refine Go.bind_image (addWidth_map s1 s.alloc 0 1) fun s2 => ?_
  refine Go.bind_image (runOps_image (bumpAt_map _) s2 _) fun s3 => ?_
  refine Go.bind_image (runOps_image (widthAtLevel_map hφ _ _) s3 _) fun s4 => ?_
  rfl

theorem remove_map (hφ : OrdMap φ) (s : SkipList F) (x : F) : (s.map φ).remove (φ x) = (s.remove x).image (map φ) := by
  unfold remove
  refine Go.bind_image ((getPrevs_map hφ s x).trans (image_id _).symm) fun prevs => ?_
  refine Go.bind_image (image_id _).symm fun p => ?_
  refine Go.bind_image (image_id _).symm fun n => ?_
  cases n with
  | none => rfl
  | some n =>
    refine Go.image_ite (by rw [valEq_map hφ]) ?_ rfl
    refine Go.bind_image (runOps_image (unlinkAt_map _ _) s _) fun s1 => ?_
    rfl

theorem selWalk_map (s : SkipList F) (k : Int) (i f : Nat) (a : Option Nat) (pos : Int) :
    (s.map φ).selWalk k i f a pos = s.selWalk k i f a pos := by
  induction f generalizing a pos with
  | zero => rfl
  | succ f ih =>
    cases a with
    | none => rfl
    | some a => simp only [selWalk, widthAt_map, nextAt_map, ih]

theorem selDown_map (s : SkipList F) (k : Int) (i : Nat) (a : Option Nat) (pos : Int) :
    (s.map φ).selDown k i a pos = s.selDown k i a pos := by
  induction i generalizing a pos with
  | zero => rfl
  | succ i ih =>
    simp only [selDown, selWalk_map, ih]
    rfl

theorem select_map (s : SkipList F) (k : Int) : (s.map φ).select k = (s.select k).image (Option.map φ) := by
  unfold select
  refine Go.image_ite Iff.rfl rfl ?_
  refine Go.bind_image ((selDown_map s _ _ _ _).trans (image_id _).symm) fun a => ?_
  cases a <;> rfl

theorem clear_map (s : SkipList F) : (s.map φ).clear = s.clear.map φ := by
  have := congrArg SkipList.store (upd_map (φ := φ) s 0 { s.store 0 with next := fun _ => none, width := fun _ => 1, level := s.maxLevel })
  exact congrArg (fun st => (⟨st, s.alloc, s.maxLevel, 0, s.draws, s.drawn⟩ : SkipList G)) this

theorem rankWalk_map (hφ : OrdMap φ) (s : SkipList F) (x : F) (i f a : Nat) (r : Int) :
    (s.map φ).rankWalk (φ x) i f a r = s.rankWalk x i f a r := by
  induction f generalizing a r with
  | zero => rfl
  | succ f ih => simp only [rankWalk, nextAt_map, widthAt_map, valLt_map hφ, ih]

theorem rank_map (hφ : OrdMap φ) (s : SkipList F) (x : F) : (s.map φ).rank (φ x) = s.rank x := by
  have h : ∀ i a r, (s.map φ).rankDown (φ x) i a r = s.rankDown x i a r := by
    intro i
    induction i with
    | zero => intro a r; rfl
    | succ i ih =>
      intro a r
      simp only [rankDown, rankWalk_map hφ, ih]
      rfl
  exact h _ _ _

end SkipList
end Skip
end Verif
