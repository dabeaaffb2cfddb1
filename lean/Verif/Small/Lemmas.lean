import Verif.Small.Model
import Verif.Bits.Lemmas
import Verif.Dense.NodeLemmas
import Verif.ListLemmas
/-!
# `SmallBlock` represents a map from positions to items
-/
namespace Hibit.Small
open Hibit

/-- Number of items below position `i`. -/
def cnt (f : Nat → Option Nat) (i : Nat) : Nat := ((List.range i).filterMap f).length

theorem cnt_add (f : Nat → Option Nat) (a b : Nat) :
    cnt f (a + b) = cnt f a + (List.range b).countP (fun j => (f (a + j)).isSome) := by
  unfold cnt
  rw [List.range_add, List.filterMap_append, List.length_append, List.length_filterMap_eq_countP (f := f)
    (l := (List.range b).map _), List.countP_map]
  rfl

theorem cnt_mono (f : Nat → Option Nat) {a b : Nat} (h : a ≤ b) : cnt f a ≤ cnt f b := by
  obtain ⟨c, rfl⟩ : ∃ c, b = a + c := ⟨b - a, by omega⟩
  rw [cnt_add]; omega

/-- The items from position `i + 1` on. -/
def aboveN (f : Nat → Option Nat) (W i : Nat) : List Nat :=
  ((List.range (W - i - 1)).map (· + (i + 1))).filterMap f

theorem split_at (f : Nat → Option Nat) {W i : Nat} (h : i < W) :
    (List.range W).filterMap f = (List.range i).filterMap f ++ ((f i).toList ++ aboveN f W i) := by
  rw [range_split h, List.filterMap_append, List.filterMap_cons]
  unfold aboveN
  cases f i <;> simp

theorem filterMap_upd {f : Nat → Option Nat} {i : Nat} {x : Option Nat} {l : List Nat}
    (h : ∀ a ∈ l, a ≠ i) : l.filterMap (Dense.upd f i x) = l.filterMap f := by
  induction l with
  | nil => rfl
  | cons a l ih =>
    simp only [List.filterMap_cons, Dense.upd_ne f x (h a (by simp)), ih (fun b hb => h b (by simp [hb]))]

theorem cnt_upd_le (f : Nat → Option Nat) (x : Option Nat) {i k : Nat} (h : k ≤ i) :
    cnt (Dense.upd f i x) k = cnt f k := by
  unfold cnt
  rw [filterMap_upd (by intro a ha; simp at ha; omega)]

theorem above_upd (f : Nat → Option Nat) (x : Option Nat) (W i : Nat) :
    aboveN (Dense.upd f i x) W i = aboveN f W i := by
  unfold aboveN
  rw [filterMap_upd]
  intro a ha
  simp only [List.mem_map, List.mem_range] at ha
  obtain ⟨k, _, rfl⟩ := ha
  omega

theorem cnt_split (f : Nat → Option Nat) {W i : Nat} (h : i < W) :
    cnt f W = cnt f i + (f i).toList.length + (aboveN f W i).length := by
  unfold cnt
  rw [split_at f h]; simp; omega

theorem cnt_insert {f : Nat → Option Nat} {i k : Nat} (v : Nat) (hn : f i = none) (h : i < k) :
    cnt (Dense.upd f i (some v)) k = cnt f k + 1 := by
  rw [cnt_split _ h, cnt_split f h, cnt_upd_le f _ (Nat.le_refl i), above_upd, Dense.upd_same, hn]
  simp; omega

theorem cnt_remove {f : Nat → Option Nat} {i k w : Nat} (hn : f i = some w) (h : i < k) :
    cnt (Dense.upd f i none) k + 1 = cnt f k := by
  rw [cnt_split _ h, cnt_split f h, cnt_upd_le f _ (Nat.le_refl i), above_upd, Dense.upd_same, hn]
  simp; omega

theorem cnt_set {f : Nat → Option Nat} {i w : Nat} (k v : Nat) (hn : f i = some w) :
    cnt (Dense.upd f i (some v)) k = cnt f k := by
  by_cases h : i < k
  · rw [cnt_split _ h, cnt_split f h, cnt_upd_le f _ (Nat.le_refl i), above_upd, Dense.upd_same, hn]
    simp
  · exact cnt_upd_le f _ (by omega)

/-- The block holds the map `f`; `spilled`: it uses the boxed array. -/
structure Rep (N CAP : Nat) (b : SB) (f : Nat → Option Nat) (spilled : Bool) : Prop where
  mlen : b.mask.length = N
  bits : ∀ i, b.mask.bit i = (f i).isSome
  big : spilled = true → ∃ a, b.store = .big a ∧ a.length = width N ∧
    ∀ i, i < width N → a[i]? = some ((f i).getD 0)
  small : spilled = false → ∃ pops cells, b.store = .small pops cells ∧ pops.length = N ∧
    (∀ k, k < N → pops[k]? = some (cnt f (64 * k))) ∧ cells.length = CAP ∧ cnt f (width N) ≤ CAP ∧
    cells.take (cnt f (width N)) = ((List.range (width N)).filterMap f).map some

section
variable {N CAP : Nat} {b : SB} {f : Nat → Option Nat} {mask : Mask} {pops : List Nat}

theorem f_lt (hm : mask.length = N) (hb : ∀ i, mask.bit i = (f i).isSome) {i : Nat} {v : Nat}
    (h : f i = some v) : i < width N := by
  have := bit_lt (m := mask) (i := i) (by rw [hb, h]; rfl)
  rw [hm] at this; exact this

theorem countP_word (hm : mask.length = N) {k : Nat} (hk : k < N) (n : Nat) (hn : n ≤ 64) :
    (List.range n).countP (fun j => (mask[k]'(by omega)).getLsbD j) =
      (List.range n).countP (fun j => mask.bit (64 * k + j)) := by
  apply List.countP_congr
  intro j hj
  simp only [List.mem_range] at hj
  rw [bit_eq mask (by omega)]
  have h1 : (64 * k + j) / 64 = k := by omega
  have h2 : (64 * k + j) % 64 = j := by omega
  simp only [h1, h2]

/-- The popcount of a word is the number of items in its range. -/
theorem popcount_word (hm : mask.length = N) {k : Nat} (hk : k < N) :
    popcount (mask[k]'(by omega)) = (List.range 64).countP (fun j => mask.bit (64 * k + j)) := by
  unfold popcount
  exact countP_word hm hk 64 (by omega)

theorem smallIndexImpl_eq (check : Bool) (hm : mask.length = N) (hp : pops.length = N) {i : Nat}
    (hi : i < 64 * N) {off : Nat} (hoff : N ≠ 1 → pops[i / 64]? = some off) (h1 : N = 1 → off = 0) :
    smallIndexImpl check mask pops i = .ok (if check && !mask.bit i then none
      else some (off + (List.range (i % 64)).countP (fun j => mask.bit (64 * (i / 64) + j)))) := by
  have hk : i / 64 < N := by omega
  have hmk : i / 64 < mask.length := by omega
  have e1 : (if mask.length = 1 then 0 else i / 64) = i / 64 := by
    split
    · omega
    · rfl
  have e2 : (if mask.length = 1 then i else i % 64) = i % 64 := by
    split
    · omega
    · rfl
  have hlt : i % 64 < 64 := Nat.mod_lt _ (by omega)
  unfold smallIndexImpl
  simp only [e1, e2, getU_ok hmk, bind_ok, shlP, hlt, if_true]
  have hz : ((mask[i / 64] &&& (1#64 <<< (i % 64))) == 0) = !mask.bit i := by
    have := getBitUnchecked_eq mask[i / 64] hlt
    rw [bit_eq mask hmk]
    have hb : ∀ (b : Bool), (mask[i / 64] &&& (1#64 <<< (i % 64)) = 0 ↔ b = false) →
        ((mask[i / 64] &&& (1#64 <<< (i % 64))) == 0) = !b := by
      intro b hb
      cases b with
      | true => simp at hb ⊢; exact hb
      | false => simp at hb ⊢; exact hb
    apply hb
    rw [word_eq_zero_iff]
    constructor
    · intro h
      have := h (i % 64) hlt
      simpa [BitVec.getLsbD_and, hlt] using this
    · intro h j hj
      rw [BitVec.getLsbD_and]
      by_cases he : j = i % 64
      · subst he; simp [h]
      · have : (1#64 <<< (i % 64)).getLsbD j = false := by
          simp [hj]
          omega
        simp [this]
  rw [show ((1 : Word) <<< (i % 64)) = (1#64 <<< (i % 64)) from rfl, hz]
  split
  · rfl
  · rw [Dense.denseIndex_word _ hlt, countP_word hm hk _ (by omega)]
    simp only [bind_ok]
    by_cases hN : N = 1
    · rw [if_pos (by omega), h1 hN]; rfl
    · rw [if_neg (by omega), getU_some (hoff hN)]; rfl

theorem smallLen_eq (hN : 0 < N) (hm : mask.length = N) (hp : pops.length = N) {off : Nat}
    (hoff : N ≠ 1 → pops[N - 1]? = some off) (h1 : N = 1 → off = 0) :
    smallLen mask pops = .ok (off + (List.range 64).countP (fun j => mask.bit (64 * (N - 1) + j))) := by
  have hlast : mask.getLast? = some (mask[N - 1]'(by omega)) :=
    List.getLast?_eq_getElem?.trans
      ((congrArg (fun k => mask[k]?) (by rw [hm])).trans (List.getElem?_eq_getElem (by omega)))
  unfold smallLen
  by_cases h : N = 1
  · simp only [show pops.length = 1 by omega, if_true, bind_ok, hlast, unwrapU, pure_eq_ok, h1 h]
    rw [popcount_word hm (by omega)]
  · simp only [show ¬ pops.length = 1 by omega, if_false]
    rw [List.getLast?_eq_getElem?, hp, hoff h, hlast]
    simp only [bind_ok, unwrapU, pure_eq_ok]
    rw [popcount_word hm (by omega)]

theorem bumpPops_eq (up : Bool) : ∀ (n i : Nat) (pops : List Nat), i + n ≤ pops.length →
    (∀ k p, i ≤ k → k < i + n → pops[k]? = some p → if up then p + 1 < 256 else 1 ≤ p) →
    ∃ pops', bumpPops up n i pops = .ok pops' ∧ pops'.length = pops.length ∧
      ∀ k p, pops[k]? = some p → pops'[k]? = some
        (if i ≤ k ∧ k < i + n then (if up then p + 1 else p - 1) else p) := by
  intro n
  induction n with
  | zero =>
    intro i pops _ _
    refine ⟨pops, rfl, rfl, fun k p h => ?_⟩
    rw [if_neg (by omega)]; exact h
  | succ n ih =>
    intro i pops hl hc
    have hi : i < pops.length := by omega
    have hi? : pops[i]? = some pops[i] := List.getElem?_eq_getElem hi
    have hci := hc i _ (by omega) (by omega) hi?
    have e : bumpPops up (n + 1) i pops =
        bumpPops up n (i + 1) (pops.set i (if up then pops[i] + 1 else pops[i] - 1)) := by
      cases up with
      | true => simp at hci; simp [bumpPops, getU_some hi?, hci, setU_ok _ hi]
      | false =>
        have : 1 ≤ pops[i] := by simpa using hci
        simp [bumpPops, getU_some hi?, this, setU_ok _ hi]
    rw [e]
    obtain ⟨pops', e1, e2, e3⟩ := ih (i + 1) (pops.set i (if up then pops[i] + 1 else pops[i] - 1))
      (by simp; omega) (by
        intro k p h1 h2 h3
        rw [List.getElem?_set, if_neg (by omega)] at h3
        exact hc k p (by omega) (by omega) h3)
    refine ⟨pops', e1, by simpa using e2, fun k p h => ?_⟩
    by_cases hk : k = i
    · subst hk
      rw [hi?] at h
      cases h
      rw [e3 k _ (by rw [List.getElem?_set, if_pos rfl, if_pos hi])]
      rw [if_neg (show ¬ (k + 1 ≤ k ∧ k < k + 1 + n) by omega),
        if_pos (show k ≤ k ∧ k < k + (n + 1) by omega)]
    · rw [e3 k p (by rw [List.getElem?_set, if_neg (by omega)]; exact h)]
      by_cases h1 : i ≤ k ∧ k < i + (n + 1)
      · rw [if_pos h1, if_pos (by omega)]
      · rw [if_neg h1, if_neg (by omega)]

end

/-- Moving the items to the boxed array. -/
theorem move_feed {f : Nat → Option Nat} (cells : List (Option Nat)) :
    ∀ (l : List Nat) (i : Nat) (a : List Nat),
    (∀ k x, l[k]? = some x → x < a.length ∧ ∃ v, f x = some v ∧ cells[i + k]? = some (some v)) →
    ∃ a', feed (fun st i => (moveBody cells st i, false)) (.ok (i, a)) l =
        ((.ok (i + l.length, a') : R (Nat × List Nat)), false) ∧ a'.length = a.length ∧
      ∀ x, x < a.length → a'[x]? = if x ∈ l then some ((f x).getD 0) else a[x]? := by
  intro l
  induction l with
  | nil => intro i a _; exact ⟨a, rfl, rfl, fun x _ => by simp⟩
  | cons y l ih =>
    intro i a h
    obtain ⟨hy, v, hv, hc⟩ := h 0 y rfl
    obtain ⟨a', e1, e2, e3⟩ := ih (i + 1) (a.set y v) (by
      intro k x hx
      obtain ⟨h1, w, h2, h3⟩ := h (k + 1) x (by simpa using hx)
      exact ⟨by simpa using h1, w, h2, by rw [← h3]; congr 1; omega⟩)
    refine ⟨a', ?_, by simpa using e2, ?_⟩
    · have hb : moveBody cells (.ok (i, a)) y = .ok (i + 1, a.set y v) := by
        simp only [moveBody, bind_ok, getU_some (show cells[i]? = some (some v) from hc), unwrapU,
          setU_ok v hy, pure_eq_ok]
      simp only [feed, hb, e1, List.length_cons, Bool.false_eq_true, if_false]
      rw [show i + 1 + l.length = i + (l.length + 1) by omega]
    · intro x hx
      rw [e3 x (by simpa using hx)]
      by_cases hxl : x ∈ l
      · simp [hxl]
      · by_cases hxy : x = y
        · subst hxy
          simp [hxl, hv, hx]
        · simp [hxl, hxy, List.getElem?_set, Ne.symm hxy]

section
variable {N CAP : Nat} {b : SB} {f : Nat → Option Nat} {sp : Bool}

theorem Rep.empty (hN : 0 < N) : Rep N CAP (SB.empty N CAP) (fun _ => none) false where
  mlen := by simp [SB.empty, zeroMask]
  bits i := by
    have := (isZero_iff (zeroMask N)).1 (by simp [isZero, zeroMask])
    simpa [SB.empty] using this i
  big h := by cases h
  small _ := by
    have hn : ∀ l : List Nat, l.filterMap (fun _ => (none : Option Nat)) = [] := by
      intro l; induction l with
      | nil => rfl
      | cons a l ih => simp
    refine ⟨_, _, rfl, by simp, fun k hk => ?_, by simp, ?_, ?_⟩
    · simp [cnt, hk, hn]
    · simp [cnt, hn]
    · simp [cnt, hn]

theorem Rep.isBig (h : Rep N CAP b f sp) (hN : 0 < N) : b.store.isBig = .ok sp := by
  cases sp with
  | true => obtain ⟨a, e, -⟩ := h.big rfl; rw [e]; rfl
  | false =>
    obtain ⟨pops, cells, e, h1, h2, -⟩ := h.small rfl
    rw [e]
    simp [Store.isBig, getU_some (h2 0 hN), cnt]

theorem Rep.lt (h : Rep N CAP b f sp) {i v : Nat} (hf : f i = some v) : i < width N :=
  f_lt h.mlen h.bits hf

/-- `cells[cnt f i]` is the item at `i`. -/
theorem cell_at {cells : List (Option Nat)}
    (ht : cells.take (cnt f (width N)) = ((List.range (width N)).filterMap f).map some) {i v : Nat}
    (hi : i < width N) (hf : f i = some v) : cells[cnt f i]? = some (some v) := by
  have hlt : cnt f i < cnt f (width N) := by
    rw [cnt_split f hi, hf]; simp; omega
  have h1 : (cells.take (cnt f (width N)))[cnt f i]? = cells[cnt f i]? := by
    rw [List.getElem?_take, if_pos hlt]
  rw [← h1, ht, split_at f hi, hf, List.map_append]
  simp [cnt]

theorem Rep.offset (h : Rep N CAP b f sp) (i : Nat) :
    cnt f (64 * (i / 64)) + (List.range (i % 64)).countP (fun j => b.mask.bit (64 * (i / 64) + j)) =
      cnt f i := by
  have e := cnt_add f (64 * (i / 64)) (i % 64)
  rw [Nat.div_add_mod] at e
  rw [e]
  simp only [h.bits]

theorem Rep.getOrZero (h : Rep N CAP b f sp) (hN : 0 < N) {i : Nat} (hi : i < width N) :
    b.getOrZero i = .ok ((f i).getD 0) := by
  unfold SB.getOrZero
  rw [h.isBig hN, bind_ok]
  cases sp with
  | true =>
    obtain ⟨a, e, h1, h2⟩ := h.big rfl
    simp only [if_true, e, Store.asBig, bind_ok, getU_some (h2 i hi)]
  | false =>
    obtain ⟨pops, cells, e, h1, h2, h3, h4, h5⟩ := h.small rfl
    simp only [Bool.false_eq_true, if_false, e, Store.asSmall, bind_ok]
    rw [smallIndexImpl_eq true h.mlen h1 hi (off := cnt f (64 * (i / 64)))
      (fun _ => h2 _ (by unfold width at hi; omega))
      (fun hh => by have : i / 64 = 0 := by unfold width at hi; omega
                    rw [this]; rfl), h.offset, h.bits]
    cases hf : f i with
    | none => simp
    | some v => simp [getU_some (cell_at h5 hi hf), unwrapU]

/-- The inline array before and after position `i`. -/
theorem take_parts {cells : List (Option Nat)} (hc : cnt f (width N) ≤ cells.length)
    (ht : cells.take (cnt f (width N)) = ((List.range (width N)).filterMap f).map some) {i : Nat}
    (hi : i < width N) :
    ∃ rest, cells = ((List.range i).filterMap f).map some ++ ((f i).toList.map some ++
      ((aboveN f (width N) i).map some ++ rest)) ∧ rest.length = cells.length - cnt f (width N) := by
  refine ⟨cells.drop (cnt f (width N)), ?_, by simp⟩
  conv => lhs; rw [← List.take_append_drop (cnt f (width N)) cells, ht, split_at f hi]
  simp

theorem Rep.insertU (h : Rep N CAP b f sp) (hN : 0 < N) (hcap : CAP < 256) {i : Nat} (v : Nat)
    (hi : i < width N) (hf : f i = none) :
    ∃ b', b.insertU CAP i v = .ok b' ∧
      Rep N CAP b' (Dense.upd f i (some v)) (sp || decide (cnt f (width N) = CAP)) := by
  obtain ⟨mask', em, hml, hmb⟩ := setBit_spec true b.mask (k := i) (by rw [h.mlen]; exact hi)
  have hbits : ∀ j, mask'.bit j = (Dense.upd f i (some v) j).isSome := by
    intro j
    by_cases hj : j < 64 * b.mask.length
    · rw [hmb j hj]
      by_cases hji : j = i
      · subst hji; simp
      · rw [if_neg hji, Dense.upd_ne _ _ hji, h.bits]
    · rw [bit_of_ge (by rw [hml]; omega)]
      have hji : j ≠ i := by rw [h.mlen] at hj; unfold width at hi; omega
      rw [Dense.upd_ne _ _ hji, ← h.bits, bit_of_ge (by omega)]
  have hml' : mask'.length = N := by rw [hml, h.mlen]
  unfold SB.insertU
  rw [h.isBig hN, bind_ok]
  cases sp with
  | true =>
    obtain ⟨a, e, h1, h2⟩ := h.big rfl
    refine ⟨⟨mask', .big (a.set i v)⟩, ?_, hml', hbits, fun _ => ⟨_, rfl, by simpa using h1, ?_⟩,
      fun hh => by simp at hh⟩
    · simp only [if_true, e, Store.asBig, bind_ok, setU_ok v (show i < a.length by omega), em, pure_eq_ok]
    · intro j hj
      by_cases hji : j = i
      · subst hji; simp [h1, hj]
      · rw [List.getElem?_set, if_neg (Ne.symm hji), h2 j hj, Dense.upd_ne _ _ hji]
  | false =>
    obtain ⟨pops, cells, e, h1, h2, h3, h4, h5⟩ := h.small rfl
    have hoff1 : N = 1 → cnt f (64 * (N - 1)) = 0 := by rintro rfl; rfl
    have hlen : smallLen b.mask pops = .ok (cnt f (width N)) := by
      rw [smallLen_eq hN h.mlen h1 (off := cnt f (64 * (N - 1))) (fun _ => h2 _ (by omega)) hoff1]
      simp only [h.bits]
      rw [← cnt_add]
      congr 2
      unfold width; omega
    simp only [Bool.false_eq_true, if_false, e, Store.asSmall, bind_ok, hlen]
    by_cases hfull : cnt f (width N) = CAP
    · rw [if_pos hfull]
      obtain ⟨a', g1, g2, g3⟩ := move_feed (f := f) cells b.mask.ones 0
        (List.replicate (width b.mask.length) 0) (by
          intro k x hx
          have hxm : x ∈ b.mask.ones := List.mem_of_getElem? hx
          rw [mem_ones, h.bits, Option.isSome_iff_exists] at hxm
          obtain ⟨w, hw⟩ := hxm
          have hxl := h.lt hw
          refine ⟨by rw [List.length_replicate, h.mlen]; exact hxl, w, hw, ?_⟩
          have hkx : k = cnt f x := by
            have hx2 : b.mask.ones[k]? = some x := hx
            have hones : b.mask.ones = (List.range (width N)).filter (fun j => (f j).isSome) := by
              unfold Mask.ones
              rw [h.mlen]
              apply List.filter_congr
              intro j _; exact h.bits j
            have hpos : b.mask.ones[cnt f x]? = some x := by
              rw [hones, range_split hxl, List.filter_append, List.filter_cons]
              simp only [hw, Option.isSome_some, if_true]
              have hl : ((List.range x).filter (fun j => (f j).isSome)).length = cnt f x := by
                unfold cnt
                rw [List.length_filterMap_eq_countP, List.countP_eq_length_filter]
              rw [List.getElem?_append_right (by omega), hl]
              simp
            obtain ⟨hk, hk'⟩ := List.getElem?_eq_some_iff.1 hx2
            obtain ⟨hc, hc'⟩ := List.getElem?_eq_some_iff.1 hpos
            have hpw := List.pairwise_iff_getElem.1 (ones_pairwise b.mask)
            rcases Nat.lt_trichotomy k (cnt f x) with hlt | heq | hgt
            · have := hpw k _ hk hc hlt; omega
            · exact heq
            · have := hpw _ k hc hk hgt; omega
          rw [Nat.zero_add, hkx]
          exact cell_at h5 hxl hw)
      rw [List.length_replicate, h.mlen] at g2
      refine ⟨⟨mask', .big (a'.set i v)⟩, ?_, hml', hbits, fun _ => ⟨_, rfl, by simpa using g2, ?_⟩,
        fun hh => by simp [hfull] at hh⟩
      · rw [traverseBits_eq, g1]
        simp only [bind_ok, setU_ok v (show i < a'.length by omega), em, pure_eq_ok]
      · intro j hj
        by_cases hji : j = i
        · subst hji; simp [g2, hj]
        · rw [List.getElem?_set, if_neg (Ne.symm hji), g3 j (by rw [List.length_replicate, h.mlen]; exact hj),
            Dense.upd_ne _ _ hji]
          simp only [mem_ones, h.bits]
          cases hfj : f j with
          | some w => simp
          | none => simp [h.mlen, hj]
    · rw [if_neg hfull]
      have hlt : cnt f (width N) < CAP := by omega
      have hidx : smallIndexU b.mask pops i = .ok (cnt f i) := by
        unfold smallIndexU
        rw [smallIndexImpl_eq false h.mlen h1 hi (off := cnt f (64 * (i / 64)))
          (fun _ => h2 _ (by unfold width at hi; omega))
          (fun hh => by have : i / 64 = 0 := by unfold width at hi; omega
                        rw [this]; rfl), h.offset]
        rfl
      have hle : cnt f i ≤ cnt f (width N) := cnt_mono f (by omega)
      obtain ⟨rest, hcells, hrest⟩ := take_parts (by omega) h5 hi
      have hsp := cnt_split f hi
      rw [hf] at hcells hsp
      simp only [Option.toList_none, List.map_nil, List.nil_append, List.length_nil] at hcells hsp
      obtain ⟨r0, rest', hr⟩ : ∃ r0 rest', rest = r0 :: rest' := by
        cases rest with
        | nil => simp at hrest; omega
        | cons x y => exact ⟨x, y, rfl⟩
      subst hr
      have hA : (((List.range i).filterMap f).map some).length = cnt f i := by simp [cnt]
      have hcopy : copyWithin cells (cnt f i) (cnt f i + 1) (cnt f (width N) - cnt f i) =
          .ok (((List.range i).filterMap f).map some ++ (cells[cnt f i]? |>.getD none) ::
            ((aboveN f (width N) i).map some ++ rest')) := by
        unfold copyWithin
        rw [if_pos ⟨by omega, by omega⟩]
        congr 1
        have hB : ((aboveN f (width N) i).map some).length = cnt f (width N) - cnt f i := by simp; omega
        have e1 : cells.drop (cnt f i) = (aboveN f (width N) i).map some ++ r0 :: rest' := by
          rw [hcells, List.drop_left' hA]
        have e2 : (cells.drop (cnt f i)).take (cnt f (width N) - cnt f i) =
            (aboveN f (width N) i).map some := by rw [e1, List.take_left' hB]
        have e3 : cells.drop (cnt f i + 1 + (cnt f (width N) - cnt f i)) = rest' := by
          rw [hcells, ← List.append_assoc, show cnt f i + 1 + (cnt f (width N) - cnt f i) =
            (((List.range i).filterMap f).map some ++ (aboveN f (width N) i).map some).length + 1 by
              simp [hA]; omega, List.drop_append]
          simp
        have hc? : cells[cnt f i]? = some (cells[cnt f i]'(by omega)) := List.getElem?_eq_getElem (by omega)
        have e4 : cells.take (cnt f i + 1) = ((List.range i).filterMap f).map some ++
            [cells[cnt f i]'(by omega)] := by
          rw [take_succ_of_getElem? hc?]
          congr 1
          conv => lhs; rw [hcells]
          rw [List.take_left' hA]
        rw [e2, e3, e4, hc?]
        simp
      obtain ⟨pops', p1, p2, p3⟩ := bumpPops_eq true (b.mask.length - (i / 64 + 1)) (i / 64 + 1) pops
        (by rw [h.mlen, h1]; unfold width at hi; omega) (by
          intro k p hk1 hk2 hp
          have hkN : k < N := by have := h.mlen; omega
          rw [h2 k hkN] at hp
          injection hp with hp
          have := cnt_mono f (show 64 * k ≤ width N by unfold width; omega)
          simp; omega)
      have hcnt' : cnt (Dense.upd f i (some v)) (width N) = cnt f (width N) + 1 := cnt_insert v hf hi
      refine ⟨⟨mask', .small pops' (((List.range i).filterMap f).map some ++ some v ::
            ((aboveN f (width N) i).map some ++ rest'))⟩, ?_, hml', hbits,
        fun hh => by simp [hfull] at hh, fun _ => ⟨_, _, rfl, by omega, ?_, ?_, by omega, ?_⟩⟩
      · simp only [hidx, bind_ok, subUsize, if_pos hle, hcopy, p1, em, pure_eq_ok]
        rw [setU_ok (some v) (by rw [List.length_append, hA]; simp)]
        simp only [bind_ok, p1]
        rw [List.set_append, if_neg (by omega), hA, Nat.sub_self]
        rfl
      · intro k hk
        rw [p3 k _ (h2 k hk)]
        by_cases hk1 : i / 64 + 1 ≤ k
        · rw [if_pos ⟨hk1, by have := h.mlen; omega⟩, cnt_insert v hf (by omega)]
          rfl
        · rw [if_neg (by omega), cnt_upd_le f _ (by omega)]
      · have := congrArg List.length hcells
        simp at this ⊢
        omega
      · rw [hcnt', split_at _ hi, above_upd, Dense.upd_same,
          filterMap_upd (by intro a ha; simp at ha; omega)]
        simp only [Option.toList_some, List.map_append, List.map_cons, List.map_nil]
        rw [show ((List.range i).filterMap f).map some ++ some v :: ((aboveN f (width N) i).map some ++ rest') =
          (((List.range i).filterMap f).map some ++ ([some v] ++ (aboveN f (width N) i).map some)) ++ rest' by
            simp]
        rw [List.take_left']
        simp [hA]; omega

theorem Rep.setBit (h : Rep N CAP b f sp) {i : Nat} (hi : i < width N) (x : Option Nat) :
    ∃ mask', Hibit.setBit x.isSome b.mask i = .ok ((f i).isSome, mask') ∧ mask'.length = N ∧
      ∀ j, mask'.bit j = (Dense.upd f i x j).isSome := by
  obtain ⟨mask', em, hml, hmb⟩ := setBit_spec x.isSome b.mask (k := i) (by rw [h.mlen]; exact hi)
  rw [h.bits] at em
  refine ⟨mask', em, by rw [hml, h.mlen], ?_⟩
  intro j
  by_cases hj : j < 64 * b.mask.length
  · rw [hmb j hj]
    by_cases hji : j = i
    · subst hji; simp
    · rw [if_neg hji, Dense.upd_ne _ _ hji, h.bits]
  · rw [bit_of_ge (by rw [hml]; omega)]
    have hji : j ≠ i := by rw [h.mlen] at hj; unfold width at hi; omega
    rw [Dense.upd_ne _ _ hji, ← h.bits, bit_of_ge (by omega)]

/-- The positions of a removal in the inline array. -/
theorem Rep.remove_parts {pops : List Nat} (h : Rep N CAP b f sp) (hN : 0 < N) {i v : Nat}
    (hi : i < width N) (hf : f i = some v) {mask' : Mask} (hml : mask'.length = N)
    (hmb : ∀ j, mask'.bit j = (Dense.upd f i none j).isSome) (h1 : pops.length = N)
    (h2 : ∀ k, k < N → pops[k]? = some (cnt f (64 * k))) :
    smallIndexU mask' pops i = .ok (cnt f i) ∧
    smallLen mask' pops = .ok (cnt f (width N) - if i / 64 = N - 1 then 1 else 0) := by
  constructor
  · unfold smallIndexU
    rw [smallIndexImpl_eq false hml h1 hi (off := cnt f (64 * (i / 64)))
      (fun _ => h2 _ (by unfold width at hi; omega))
      (fun hh => by have : i / 64 = 0 := by unfold width at hi; omega
                    rw [this]; rfl)]
    have : (List.range (i % 64)).countP (fun j => mask'.bit (64 * (i / 64) + j)) =
        (List.range (i % 64)).countP (fun j => b.mask.bit (64 * (i / 64) + j)) := by
      apply List.countP_congr
      intro j hj
      simp only [List.mem_range] at hj
      rw [hmb, Dense.upd_ne _ _ (by omega), h.bits]
    rw [this, h.offset]
    rfl
  · have hoff1 : N = 1 → cnt f (64 * (N - 1)) = 0 := by rintro rfl; rfl
    rw [smallLen_eq hN hml h1 (off := cnt f (64 * (N - 1))) (fun _ => h2 _ (by omega)) hoff1]
    simp only [hmb]
    have e1 := cnt_add (Dense.upd f i none) (64 * (N - 1)) 64
    rw [show 64 * (N - 1) + 64 = width N by unfold width; omega] at e1
    have e2 := cnt_remove hf hi
    congr 1
    by_cases hl : i / 64 = N - 1
    · rw [if_pos hl]
      rw [cnt_upd_le f none (show 64 * (N - 1) ≤ i by omega)] at e1
      omega
    · rw [if_neg hl]
      have e3 := cnt_remove hf (show i < 64 * (N - 1) by unfold width at hi; omega)
      omega

theorem Rep.removeU (h : Rep N CAP b f sp) (hN : 0 < N) {i v : Nat} (hf : f i = some v)
    (hsafe : sp = true ∨ i / 64 = N - 1 ∨ cnt f (width N) < CAP) :
    ∃ b', b.removeU i = .ok b' ∧ Rep N CAP b' (Dense.upd f i none) sp := by
  have hi := h.lt hf
  obtain ⟨mask', em, hml, hmb⟩ := h.setBit hi none
  rw [hf] at em
  unfold SB.removeU
  rw [show (Option.isSome (none : Option Nat)) = false from rfl] at em
  rw [em]
  simp only [bind_ok, Option.isSome_some, if_true]
  rw [h.isBig hN, bind_ok]
  cases sp with
  | true =>
    obtain ⟨a, e, h1, h2⟩ := h.big rfl
    refine ⟨⟨mask', .big (a.set i 0)⟩, ?_, hml, hmb, fun _ => ⟨_, rfl, by simpa using h1, ?_⟩,
      fun hh => by cases hh⟩
    · simp only [if_true, e, Store.asBig, bind_ok, setU_ok 0 (show i < a.length by omega), pure_eq_ok]
    · intro j hj
      by_cases hji : j = i
      · subst hji; simp [h1, hj]
      · rw [List.getElem?_set, if_neg (Ne.symm hji), h2 j hj, Dense.upd_ne _ _ hji]
  | false =>
    obtain ⟨pops, cells, e, h1, h2, h3, h4, h5⟩ := h.small rfl
    obtain ⟨r1, r2⟩ := h.remove_parts hN hi hf hml hmb h1 h2
    simp only [Bool.false_eq_true, if_false, e, Store.asSmall, bind_ok, r1, r2]
    obtain ⟨rest, hcells, hrest⟩ := take_parts (by omega) h5 hi
    have hsp := cnt_split f hi
    rw [hf] at hcells hsp
    simp only [Option.toList_some, List.map_cons, List.map_nil, List.length_cons, List.length_nil]
      at hcells hsp
    have hA : (((List.range i).filterMap f).map some).length = cnt f i := by simp [cnt]
    have hcnt' := cnt_remove hf hi
    obtain ⟨c, hc, hcB, hcC⟩ : ∃ c, (cnt f (width N) - if i / 64 = N - 1 then 1 else 0) = cnt f i + c ∧
        (aboveN f (width N) i).length ≤ c ∧ cnt f i + 1 + c ≤ CAP := by
      by_cases hl : i / 64 = N - 1
      · exact ⟨(aboveN f (width N) i).length, by rw [if_pos hl]; omega, Nat.le_refl _, by omega⟩
      · refine ⟨(aboveN f (width N) i).length + 1, by rw [if_neg hl]; omega, by omega, ?_⟩
        rcases hsafe with hs | hs | hs
        · cases hs
        · exact absurd hs hl
        · omega
    rw [hc]
    simp only [subUsize, Nat.le_add_right, if_true, bind_ok, Nat.add_sub_cancel_left]
    have e1 : cells.drop (cnt f i + 1) = (aboveN f (width N) i).map some ++ rest := by
      rw [hcells, show ((List.range i).filterMap f).map some ++ ([some v] ++
        ((aboveN f (width N) i).map some ++ rest)) = (((List.range i).filterMap f).map some ++ [some v]) ++
          ((aboveN f (width N) i).map some ++ rest) by simp, List.drop_left' (by simp [hA])]
    have e2 : cells.take (cnt f i) = ((List.range i).filterMap f).map some := by
      conv => lhs; rw [hcells]
      rw [List.take_left' hA]
    have e3 : (cells.drop (cnt f i + 1)).take c = (aboveN f (width N) i).map some ++
        rest.take (c - (aboveN f (width N) i).length) := by
      rw [e1, List.take_append, List.take_of_length_le (by simpa using hcB)]
      simp
    obtain ⟨pops', p1, p2, p3⟩ := bumpPops_eq false (mask'.length - (i / 64 + 1)) (i / 64 + 1) pops
      (by rw [hml, h1]; unfold width at hi; omega) (by
        intro k p hk1 hk2 hp
        have hkN : k < N := by omega
        rw [h2 k hkN] at hp
        injection hp with hp
        have := cnt_remove hf (show i < 64 * k by omega)
        simp; omega)
    refine ⟨⟨mask', .small pops' (((List.range i).filterMap f).map some ++ ((aboveN f (width N) i).map some ++
        rest.take (c - (aboveN f (width N) i).length)) ++ cells.drop (cnt f i + c))⟩, ?_, hml, hmb,
      fun hh => (by cases hh), fun _ => ⟨_, _, rfl, by omega, ?_, ?_, by omega, ?_⟩⟩
    · have hcopy : copyWithin cells (cnt f i + 1) (cnt f i) c =
          .ok (((List.range i).filterMap f).map some ++ ((aboveN f (width N) i).map some ++
            rest.take (c - (aboveN f (width N) i).length)) ++ cells.drop (cnt f i + c)) := by
        unfold copyWithin
        rw [if_pos ⟨by omega, by omega⟩, e2, e3]
      simp only [hcopy, bind_ok, p1, pure_eq_ok]
    · intro k hk
      rw [p3 k _ (h2 k hk)]
      by_cases hk1 : i / 64 + 1 ≤ k
      · rw [if_pos ⟨hk1, by omega⟩]
        have := cnt_remove hf (show i < 64 * k by omega)
        simp only [Bool.false_eq_true, if_false]
        congr 1; omega
      · rw [if_neg (by omega), cnt_upd_le f _ (by omega)]
    · have := congrArg List.length hcells
      simp only [List.length_append, List.length_map, List.length_take, List.length_drop,
        List.length_cons, List.length_nil] at this hA ⊢
      omega
    · rw [split_at _ hi, above_upd, Dense.upd_same, filterMap_upd (by intro a ha; simp at ha; omega)]
      simp only [Option.toList_none, List.nil_append, List.map_append]
      rw [show ((List.range i).filterMap f).map some ++ ((aboveN f (width N) i).map some ++
          rest.take (c - (aboveN f (width N) i).length)) ++ cells.drop (cnt f i + c) =
        (((List.range i).filterMap f).map some ++ (aboveN f (width N) i).map some) ++
          (rest.take (c - (aboveN f (width N) i).length) ++ cells.drop (cnt f i + c)) by simp]
      rw [List.take_left']
      simp [hA]; omega

/-- The over-read: removing from a full inline array a position outside the last mask word. -/
theorem Rep.removeU_ub (h : Rep N CAP b f false) (hN : 0 < N) {i v : Nat} (hf : f i = some v)
    (hl : i / 64 ≠ N - 1) (hfull : cnt f (width N) = CAP) : b.removeU i = .error .ub := by
  have hi := h.lt hf
  obtain ⟨mask', em, hml, hmb⟩ := h.setBit hi none
  rw [hf] at em
  unfold SB.removeU
  rw [show (Option.isSome (none : Option Nat)) = false from rfl] at em
  rw [em]
  simp only [bind_ok, Option.isSome_some, if_true]
  rw [h.isBig hN, bind_ok]
  obtain ⟨pops, cells, e, h1, h2, h3, h4, h5⟩ := h.small rfl
  obtain ⟨r1, r2⟩ := h.remove_parts hN hi hf hml hmb h1 h2
  simp only [Bool.false_eq_true, if_false, e, Store.asSmall, bind_ok, r1, r2, if_neg hl, Nat.sub_zero]
  have hsp := cnt_split f hi
  rw [hf] at hsp
  simp only [Option.toList_some, List.length_cons, List.length_nil] at hsp
  simp only [subUsize, if_pos (show cnt f i ≤ cnt f (width N) by omega), bind_ok]
  have : copyWithin cells (cnt f i + 1) (cnt f i) (cnt f (width N) - cnt f i) = .error .ub := by
    unfold copyWithin
    rw [if_neg (by omega)]
  rw [this]; rfl

theorem Rep.setU (h : Rep N CAP b f sp) (hN : 0 < N) {i v : Nat} (w : Nat) (hf : f i = some v) :
    ∃ b', b.setU i w = .ok b' ∧ Rep N CAP b' (Dense.upd f i (some w)) sp := by
  have hi := h.lt hf
  have hbits : ∀ j, b.mask.bit j = (Dense.upd f i (some w) j).isSome := by
    intro j
    by_cases hji : j = i
    · subst hji; rw [h.bits, hf]; simp
    · rw [Dense.upd_ne _ _ hji, h.bits]
  unfold SB.setU
  rw [h.isBig hN, bind_ok]
  cases sp with
  | true =>
    obtain ⟨a, e, h1, h2⟩ := h.big rfl
    refine ⟨⟨b.mask, .big (a.set i w)⟩, ?_, h.mlen, hbits, fun _ => ⟨_, rfl, by simpa using h1, ?_⟩,
      fun hh => by cases hh⟩
    · simp only [if_true, e, Store.asBig, bind_ok, setU_ok w (show i < a.length by omega), pure_eq_ok]
    · intro j hj
      by_cases hji : j = i
      · subst hji; simp [h1, hj]
      · rw [List.getElem?_set, if_neg (Ne.symm hji), h2 j hj, Dense.upd_ne _ _ hji]
  | false =>
    obtain ⟨pops, cells, e, h1, h2, h3, h4, h5⟩ := h.small rfl
    have hidx : smallIndexU b.mask pops i = .ok (cnt f i) := by
      unfold smallIndexU
      rw [smallIndexImpl_eq false h.mlen h1 hi (off := cnt f (64 * (i / 64)))
        (fun _ => h2 _ (by unfold width at hi; omega))
        (fun hh => by have : i / 64 = 0 := by unfold width at hi; omega
                      rw [this]; rfl), h.offset]
      rfl
    obtain ⟨rest, hcells, hrest⟩ := take_parts (by omega) h5 hi
    have hsp := cnt_split f hi
    rw [hf] at hcells hsp
    simp only [Option.toList_some, List.map_cons, List.map_nil, List.length_cons, List.length_nil]
      at hcells hsp
    have hA : (((List.range i).filterMap f).map some).length = cnt f i := by simp [cnt]
    refine ⟨⟨b.mask, .small pops (cells.set (cnt f i) (some w))⟩, ?_, h.mlen, hbits,
      fun hh => (by cases hh), fun _ => ⟨_, _, rfl, h1, ?_, by simpa using h3, ?_, ?_⟩⟩
    · simp only [Bool.false_eq_true, if_false, e, Store.asSmall, bind_ok, hidx,
        setU_ok (some w) (show cnt f i < cells.length by omega), pure_eq_ok]
    · intro k hk; rw [h2 k hk, cnt_set _ w hf]
    · rw [cnt_set _ w hf]; exact h4
    · rw [cnt_set _ w hf, split_at _ hi, above_upd, Dense.upd_same,
        filterMap_upd (by intro a ha; simp at ha; omega)]
      conv => lhs; rw [hcells]
      rw [List.set_append, if_neg (by omega), hA, Nat.sub_self]
      simp only [Option.toList_some, List.map_append, List.map_cons, List.map_nil, List.cons_append,
        List.nil_append, List.set_cons_zero]
      rw [show ((List.range i).filterMap f).map some ++ some w :: ((aboveN f (width N) i).map some ++ rest) =
        (((List.range i).filterMap f).map some ++ some w :: (aboveN f (width N) i).map some) ++ rest by simp]
      rw [List.take_left']
      simp [hA]; omega

end

/-- The full-size block holds the map `f`. -/
structure BRep (N : Nat) (b : Sparse.Block) (f : Nat → Option Nat) : Prop where
  mlen : b.mask.length = N
  bits : ∀ i, b.mask.bit i = (f i).isSome
  len : b.idx.length = width N
  idx : ∀ i, i < width N → b.idx[i]? = some ((f i).getD 0)

theorem BRep.empty (N : Nat) : BRep N (Sparse.Block.empty N) (fun _ => none) where
  mlen := by simp [Sparse.Block.empty, zeroMask]
  bits i := by
    have := (isZero_iff (zeroMask N)).1 (by simp [isZero, zeroMask])
    simpa [Sparse.Block.empty] using this i
  len := by simp [Sparse.Block.empty]
  idx i hi := by simp [Sparse.Block.empty, hi]

theorem BRep.setBit {N : Nat} {b : Sparse.Block} {f : Nat → Option Nat} (h : BRep N b f) {i : Nat}
    (hi : i < width N) (x : Option Nat) :
    ∃ mask', Hibit.setBit x.isSome b.mask i = .ok ((f i).isSome, mask') ∧ mask'.length = N ∧
      ∀ j, mask'.bit j = (Dense.upd f i x j).isSome := by
  obtain ⟨mask', em, hml, hmb⟩ := setBit_spec x.isSome b.mask (k := i) (by rw [h.mlen]; exact hi)
  rw [h.bits] at em
  refine ⟨mask', em, by rw [hml, h.mlen], ?_⟩
  intro j
  by_cases hj : j < 64 * b.mask.length
  · rw [hmb j hj]
    by_cases hji : j = i
    · subst hji; simp
    · rw [if_neg hji, Dense.upd_ne _ _ hji, h.bits]
  · rw [bit_of_ge (by rw [hml]; omega)]
    have hji : j ≠ i := by rw [h.mlen] at hj; unfold width at hi; omega
    rw [Dense.upd_ne _ _ hji, ← h.bits, bit_of_ge (by omega)]

theorem BRep.put {N : Nat} {b : Sparse.Block} {f : Nat → Option Nat} (h : BRep N b f) {i : Nat}
    (hi : i < width N) (x : Option Nat) {mask' : Mask} (hml : mask'.length = N)
    (hmb : ∀ j, mask'.bit j = (Dense.upd f i x j).isSome) :
    BRep N ⟨mask', b.idx.set i (x.getD 0)⟩ (Dense.upd f i x) where
  mlen := hml
  bits := hmb
  len := by simpa using h.len
  idx j hj := by
    by_cases hji : j = i
    · subst hji; simp [h.len, hj]
    · rw [List.getElem?_set, if_neg (Ne.symm hji), h.idx j hj, Dense.upd_ne _ _ hji]

end Hibit.Small
