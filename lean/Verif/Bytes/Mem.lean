import Verif.Bytes.Model
/-!
# Byte memory: lemmas
-/
namespace Hibit.Bytes
open Hibit Hibit.Dense

/-- The bytes `v` are at offset `o`. -/
def At (b : Block) (o : Nat) (v : List MByte) : Prop := ∀ j, j < v.length → b[o + j]? = v[j]?

theorem At.bound {b : Block} {o : Nat} {v : List MByte} (h : At b o v) (hv : 1 ≤ v.length) :
    o + v.length ≤ b.length := by
  have := h (v.length - 1) (by omega)
  rw [List.getElem?_eq_getElem (show v.length - 1 < v.length by omega)] at this
  obtain ⟨hl, -⟩ := List.getElem?_eq_some_iff.1 this
  omega

/-- Memory outside the bytes is irrelevant. -/
theorem At.congr {b b' : Block} {o : Nat} {v : List MByte} (h : At b o v)
    (he : ∀ i, o ≤ i → i < o + v.length → b'[i]? = b[i]?) : At b' o v :=
  fun j hj => (he _ (by omega) (by omega)).trans (h j hj)

theorem load_at {b : Block} {o al : Nat} {v : List MByte} {s : Nat} (h : At b o v)
    (hs : v.length = s) (hv : 1 ≤ s) (ha : o % al = 0) : load b o s al = .ok v := by
  have hb := h.bound (by omega)
  unfold load
  rw [if_pos ⟨ha, by omega⟩]
  congr 1
  apply List.ext_getElem?
  intro j
  rw [List.getElem?_take, List.getElem?_drop]
  by_cases hj : j < s
  · rw [if_pos hj]; exact h j (by omega)
  · rw [if_neg hj, List.getElem?_eq_none (by omega)]

theorem store_ok {b : Block} {o al : Nat} {v : List MByte} (ha : o % al = 0)
    (hb : o + v.length ≤ b.length) :
    ∃ b', store b o al v = .ok b' ∧ b'.length = b.length ∧ At b' o v ∧
      ∀ i, (i < o ∨ o + v.length ≤ i) → b'[i]? = b[i]? := by
  refine ⟨b.take o ++ v ++ b.drop (o + v.length), ?_, ?_, ?_, ?_⟩
  · unfold store; rw [if_pos ⟨ha, hb⟩]
  · simp; omega
  · intro j hj
    rw [List.append_assoc, List.getElem?_append_right (by simp; omega),
      List.getElem?_append_left (by simp; omega)]
    congr 1
    simp; omega
  · intro i hi
    rw [List.append_assoc]
    rcases hi with hi | hi
    · rw [List.getElem?_append_left (by simp; omega), List.getElem?_take_of_lt hi]
    · rw [List.getElem?_append_right (by simp; omega), List.getElem?_append_right (by simp; omega),
        List.getElem?_drop]
      congr 1
      simp; omega

theorem memmove_ok {b : Block} {src dst size al : Nat} (hs : src % al = 0) (hd : dst % al = 0)
    (bs : src + size ≤ b.length) (bd : dst + size ≤ b.length) :
    ∃ b', memmove b src dst size al = .ok b' ∧ b'.length = b.length ∧
      (∀ j, j < size → b'[dst + j]? = b[src + j]?) ∧
      ∀ i, (i < dst ∨ dst + size ≤ i) → b'[i]? = b[i]? := by
  refine ⟨b.take dst ++ (b.drop src).take size ++ b.drop (dst + size), ?_, ?_, ?_, ?_⟩
  · unfold memmove; rw [if_pos ⟨hs, hd, bs, bd⟩]
  · simp; omega
  · intro j hj
    rw [List.append_assoc, List.getElem?_append_right (by simp; omega),
      List.getElem?_append_left (by simp; omega), List.getElem?_take, List.getElem?_drop]
    rw [if_pos (by simp; omega)]
    congr 1
    simp; omega
  · intro i hi
    rw [List.append_assoc]
    rcases hi with hi | hi
    · rw [List.getElem?_append_left (by simp; omega), List.getElem?_take_of_lt hi]
    · rw [List.getElem?_append_right (by simp; omega), List.getElem?_append_right (by simp; omega),
        List.getElem?_drop]
      congr 1
      simp; omega

@[simp] theorem leBytes_length (s v : Nat) : (leBytes s v).length = s := by
  induction s generalizing v with
  | zero => rfl
  | succ s ih => simp [leBytes, ih]

@[simp] theorem ptrBytes_length (p : Ptr) : (ptrBytes p).length = 8 := by simp [ptrBytes]

/-- An integer is read back, modulo its width. -/
theorem leVal_leBytes (s v : Nat) : leVal (leBytes s v) = .ok (v % 256 ^ s) := by
  induction s generalizing v with
  | zero => simp [leBytes, leVal, Nat.mod_one]
  | succ s ih =>
    simp only [leBytes, leVal, ih, bind_ok, pure_eq_ok]
    rw [Nat.pow_succ', Nat.mod_mul]

/-- A pointer is read back. -/
theorem ptrVal_ptrBytes (p : Ptr) : ptrVal (ptrBytes p) = .ok p := by
  show (if _ then _ else _) = _
  rw [if_pos rfl]

@[simp] theorem layoutSize_branch (cap : Nat) : layoutSize .branch cap = 16 + 8 * cap := by
  simp only [layoutSize, alignUp, childrenOff, tsize, headerAlign]; omega

theorem layoutSize_ge (k : Kind) (cap : Nat) : 16 + tsize k * cap ≤ layoutSize k cap := by
  cases k <;> simp only [layoutSize, alignUp, childrenOff, tsize, headerAlign] <;> omega

theorem layoutSize_mono (k : Kind) {c d : Nat} (h : c ≤ d) : layoutSize k c ≤ layoutSize k d := by
  cases k <;> simp only [layoutSize, alignUp, childrenOff, tsize, headerAlign] <;> omega

theorem childOff_align (k : Kind) (d : Nat) : childOff k d % tsize k = 0 := by
  cases k <;> simp only [childOff, childrenOff, tsize] <;> omega

end Hibit.Bytes
