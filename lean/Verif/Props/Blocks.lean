import Verif.Small.Lemmas
/-!
# C59: a compact block behaves like a full-size block

The specification: a block is a table from positions to non-zero items. `legal` says which calls the
trait's safety comments allow, `after` what they do to the table, `shows` what they return. `inlined`
follows whether the table has outgrown the inline capacity, `overreads` the one call for which the
property fails.
-/
namespace Hibit.Props
open Hibit Hibit.Small

/-- The table: which item is at a position. -/
abbrev Table := Nat → Option Nat

/-- The number of occupied positions. -/
def held (N : Nat) (f : Table) : Nat := ((List.range (width N)).filter (fun i => (f i).isSome)).length

/-- Calls allowed by the documentation of `HiBlock` (level_block/mod.rs:13-67): positions inside the
mask, items other than zero, `remove_unchecked`/`set_unchecked` of occupied positions. -/
def legal (N : Nat) (f : Table) : Op → Prop
  | .get i => i < width N
  | .getOrInsert i v => i < width N ∧ v ≠ 0
  | .remove i => i < width N ∧ (f i).isSome
  | .set i v => i < width N ∧ v ≠ 0 ∧ (f i).isSome

/-- The table after a call. -/
def after (f : Table) : Op → Table
  | .get _ => f
  | .getOrInsert i v => fun j => if j = i ∧ f i = none then some v else f j
  | .remove i => fun j => if j = i then none else f j
  | .set i v => fun j => if j = i then some v else f j

/-- The returned item (0 if none) and whether something was inserted. -/
def returns (f : Table) : Op → Nat × Bool
  | .get i => ((f i).getD 0, false)
  | .getOrInsert i v => ((f i).getD v, (f i).isNone)
  | .remove _ => (0, false)
  | .set _ _ => (0, false)

/-- Everything a caller sees of a call: result, flag, mask and emptiness afterwards. -/
def shows (N : Nat) (f : Table) (op : Op) : Nat × Bool × (Nat → Bool) × Bool :=
  ((returns f op).1, (returns f op).2, fun i => ((after f op) i).isSome,
    decide (held N (after f op) = 0))

/-- What the calls show, one after the other. -/
def specShows (N : Nat) : Table → List Op → List (Nat × Bool × (Nat → Bool) × Bool)
  | _, [] => []
  | f, op :: ops => shows N f op :: specShows N (after f op) ops

/-- An observation of the model, the mask read bit by bit. -/
def seen (o : Obs) : Nat × Bool × (Nat → Bool) × Bool := (o.item, o.inserted, o.mask.bit, o.empty)

/-- Does the block leave its inline array in this call? -/
def spills (N CAP : Nat) (f : Table) : Op → Bool
  | .getOrInsert i _ => decide (f i = none ∧ held N f = CAP)
  | _ => false

/-- The call that reads past the inline array: `remove_unchecked` on a block that has never outgrown
the inline array and has it full, of a position outside the last mask word. -/
def overreads (N CAP : Nat) (f : Table) (spilled : Bool) : Op → Prop
  | .remove i => spilled = false ∧ held N f = CAP ∧ i / 64 ≠ N - 1
  | _ => False

/-- A sequence of legal calls without an over-read, from a table (and spill state). -/
def LegalRun (N CAP : Nat) : Table → Bool → List Op → Prop
  | _, _, [] => True
  | f, sp, op :: ops => legal N f op ∧ ¬ overreads N CAP f sp op ∧
      LegalRun N CAP (after f op) (sp || spills N CAP f op) ops

/-- The table and spill state after a sequence of calls. -/
def afterRun (N CAP : Nat) : Table → Bool → List Op → Table × Bool
  | f, sp, [] => (f, sp)
  | f, sp, op :: ops => afterRun N CAP (after f op) (sp || spills N CAP f op) ops

theorem held_eq (N : Nat) (f : Table) : held N f = cnt f (width N) := by
  unfold held cnt
  induction List.range (width N) with
  | nil => rfl
  | cons a l ih =>
    cases h : f a with
    | none => simp [h, ih]
    | some v => simp [h, ih]

theorem isEmpty_held {N : Nat} {m : Mask} {f : Table} (hl : m.length = N)
    (hb : ∀ i, m.bit i = (f i).isSome) : isZero m = decide (held N f = 0) := by
  have h := isZero_iff m
  by_cases hz : held N f = 0
  · rw [decide_eq_true hz, h]
    intro i
    rw [hb]
    cases e : f i with
    | none => rfl
    | some v =>
      exfalso
      have hi := f_lt hl hb e
      unfold held at hz
      rw [List.length_eq_zero_iff, List.filter_eq_nil_iff] at hz
      exact hz i (List.mem_range.2 hi) (by simp [e])
  · rw [decide_eq_false hz]
    cases e : isZero m with
    | false => rfl
    | true =>
      exfalso
      apply hz
      unfold held
      rw [List.length_eq_zero_iff, List.filter_eq_nil_iff]
      intro i _
      rw [← hb, h.1 e i]; simp

theorem after_upd_some (f : Table) {i : Nat} (v : Nat) (h : f i = none) :
    after f (.getOrInsert i v) = Dense.upd f i (some v) := by
  funext j
  by_cases hj : j = i
  · subst hj; simp [after, h]
  · simp [after, hj, Dense.upd_ne _ _ hj]

theorem after_keep (f : Table) {i : Nat} (v : Nat) {w : Nat} (h : f i = some w) :
    after f (.getOrInsert i v) = f := by
  funext j
  simp [after, h]

theorem after_remove (f : Table) (i : Nat) : after f (.remove i) = Dense.upd f i none := by
  funext j
  by_cases hj : j = i
  · subst hj; simp [after]
  · simp [after, hj, Dense.upd_ne _ _ hj]

theorem after_set (f : Table) (i v : Nat) : after f (.set i v) = Dense.upd f i (some v) := by
  funext j
  by_cases hj : j = i
  · subst hj; simp [after]
  · simp [after, hj, Dense.upd_ne _ _ hj]

theorem seen_of {N : Nat} {m : Mask} {f : Table} (hl : m.length = N)
    (hb : ∀ i, m.bit i = (f i).isSome) (r : Nat) (ins : Bool) :
    seen ⟨r, ins, m, isZero m⟩ = (r, ins, fun i => (f i).isSome, decide (held N f = 0)) := by
  unfold seen
  rw [isEmpty_held hl hb, show m.bit = fun i => (f i).isSome from funext hb]

/-- Items of a table reached by legal calls are not zero. -/
def Nz (f : Table) : Prop := ∀ i v, f i = some v → v ≠ 0

theorem Nz.after {N : Nat} {f : Table} {op : Op} (h : Nz f) (hl : legal N f op) : Nz (after f op) := by
  intro j w e
  cases op with
  | get i => exact h j w e
  | getOrInsert i v =>
    simp only [Props.after] at e
    split at e
    · injection e with e; subst e; exact hl.2
    · exact h j w e
  | remove i =>
    simp only [Props.after] at e
    split at e
    · cases e
    · exact h j w e
  | set i v =>
    simp only [Props.after] at e
    split at e
    · injection e with e; subst e; exact hl.2.1
    · exact h j w e

/-- One legal call on a compact block. -/
theorem small_step {N CAP : Nat} (hN : 0 < N) (hcap : CAP < 256) {b : SB} {f : Table} {sp : Bool}
    (h : Rep N CAP b f sp) (hz : Nz f) {op : Op} (hl : legal N f op)
    (ho : ¬ overreads N CAP f sp op) :
    ∃ o b', b.step CAP op = .ok (o, b') ∧ seen o = shows N f op ∧
      Rep N CAP b' (after f op) (sp || spills N CAP f op) := by
  cases op with
  | get i =>
    refine ⟨_, _, by simp only [SB.step, h.getOrZero hN hl, bind_ok]; rfl, ?_, ?_⟩
    · exact seen_of h.mlen h.bits _ _
    · simpa [spills, after] using h
  | getOrInsert i v =>
    simp only [SB.step, SB.getOrInsert, h.getOrZero hN hl.1, bind_ok]
    cases e : f i with
    | none =>
      obtain ⟨b', eb, hr⟩ := h.insertU hN hcap v hl.1 e
      simp only [Option.getD_none, if_true, eb, bind_ok]
      refine ⟨_, _, rfl, ?_, ?_⟩
      · unfold shows
        rw [after_upd_some f v e]
        simp only [returns, e, Option.getD_none, Option.isNone_none]
        exact seen_of hr.mlen hr.bits _ _
      · rw [after_upd_some f v e]
        simpa [spills, e, held_eq] using hr
    | some w =>
      have hw : w ≠ 0 := hz i w e
      simp only [Option.getD_some, if_neg hw, bind_ok]
      refine ⟨_, _, rfl, ?_, ?_⟩
      · unfold shows
        rw [after_keep f v e]
        simp only [returns, e, Option.getD_some, Option.isNone_some]
        exact seen_of h.mlen h.bits _ _
      · rw [after_keep f v e]
        simpa [spills, e] using h
  | remove i =>
    obtain ⟨v, hv⟩ := Option.isSome_iff_exists.1 hl.2
    obtain ⟨b', eb, hr⟩ := h.removeU hN hv (by
      by_cases h1 : sp = true
      · exact .inl h1
      · by_cases h2 : i / 64 = N - 1
        · exact .inr (.inl h2)
        · refine .inr (.inr ?_)
          have hle : cnt f (width N) ≤ CAP := by
            obtain ⟨_, _, _, _, _, _, h4, _⟩ := h.small (by simpa using h1)
            exact h4
          rcases Nat.lt_or_ge (cnt f (width N)) CAP with h3 | h3
          · exact h3
          · exfalso; apply ho
            exact ⟨by simpa using h1, by rw [held_eq]; omega, h2⟩)
    simp only [SB.step, eb, bind_ok]
    refine ⟨_, _, rfl, ?_, ?_⟩
    · unfold shows
      rw [after_remove]
      exact seen_of hr.mlen hr.bits _ _
    · rw [after_remove]; simpa [spills] using hr
  | set i v =>
    obtain ⟨w, hw⟩ := Option.isSome_iff_exists.1 hl.2.2
    obtain ⟨b', eb, hr⟩ := h.setU hN v hw
    simp only [SB.step, eb, bind_ok]
    refine ⟨_, _, rfl, ?_, ?_⟩
    · unfold shows
      rw [after_set]
      exact seen_of hr.mlen hr.bits _ _
    · rw [after_set]; simpa [spills] using hr

/-- One legal call on a full-size block. -/
theorem block_step {N : Nat} {b : Sparse.Block} {f : Table} (h : BRep N b f) (hz : Nz f) {op : Op}
    (hl : legal N f op) :
    ∃ o b', blockStep b op = .ok (o, b') ∧ seen o = shows N f op ∧ BRep N b' (after f op) := by
  have hget : ∀ i, i < width N → getU b.idx i = .ok ((f i).getD 0) := by
    intro i hi
    unfold getU
    rw [h.idx i hi]
  have hset : ∀ i v, i < width N → setU b.idx i v = .ok (b.idx.set i v) := by
    intro i v hi
    unfold setU
    rw [if_pos (by rw [h.len]; exact hi)]
  cases op with
  | get i =>
    refine ⟨_, _, by simp only [blockStep, Sparse.Block.getOrZero, hget i hl, bind_ok]; rfl, ?_, h⟩
    exact seen_of h.mlen h.bits _ _
  | getOrInsert i v =>
    simp only [blockStep, blockGetOrInsert, hget i hl.1, bind_ok]
    cases e : f i with
    | none =>
      obtain ⟨m, em, hml, hmb⟩ := h.setBit hl.1 (some v)
      simp only [Option.isSome_some] at em
      simp only [Option.getD_none, ne_eq, not_true_eq_false, if_false, em, bind_ok, hset i v hl.1]
      refine ⟨_, _, rfl, ?_, ?_⟩
      · unfold shows
        rw [after_upd_some f v e]
        simp only [returns, e, Option.getD_none, Option.isNone_none]
        exact seen_of hml hmb _ _
      · rw [after_upd_some f v e]
        exact h.put hl.1 (some v) hml hmb
    | some w =>
      have hw : w ≠ 0 := hz i w e
      simp only [Option.getD_some, ne_eq, hw, not_false_eq_true, if_true, bind_ok]
      refine ⟨_, _, rfl, ?_, ?_⟩
      · unfold shows
        rw [after_keep f v e]
        simp only [returns, e, Option.getD_some, Option.isNone_some]
        exact seen_of h.mlen h.bits _ _
      · rw [after_keep f v e]; exact h
  | remove i =>
    obtain ⟨m, em, hml, hmb⟩ := h.setBit hl.1 none
    simp only [Option.isSome_none] at em
    simp only [blockStep, Sparse.Block.remove, em, bind_ok, hset i 0 hl.1]
    refine ⟨_, _, rfl, ?_, ?_⟩
    · unfold shows
      rw [after_remove]
      exact seen_of hml hmb _ _
    · rw [after_remove]; exact h.put hl.1 none hml hmb
  | set i v =>
    obtain ⟨w, hw⟩ := Option.isSome_iff_exists.1 hl.2.2
    have hmb : ∀ j, b.mask.bit j = (Dense.upd f i (some v) j).isSome := by
      intro j
      by_cases hj : j = i
      · subst hj; rw [h.bits, hw]; simp
      · rw [Dense.upd_ne _ _ hj, h.bits]
    simp only [blockStep, blockSet, hset i v hl.1, bind_ok]
    refine ⟨_, _, rfl, ?_, ?_⟩
    · unfold shows
      rw [after_set]
      exact seen_of h.mlen hmb _ _
    · rw [after_set]; exact h.put hl.1 (some v) h.mlen hmb

theorem small_run {N CAP : Nat} (hN : 0 < N) (hcap : CAP < 256) : ∀ (ops : List Op) {b : SB}
    {f : Table} {sp : Bool}, Rep N CAP b f sp → Nz f → LegalRun N CAP f sp ops →
    ∃ os b', SB.run CAP b ops = .ok (os, b') ∧ os.map seen = specShows N f ops ∧
      Rep N CAP b' (afterRun N CAP f sp ops).1 (afterRun N CAP f sp ops).2
  | [], b, _, _, h, _, _ => ⟨[], b, rfl, rfl, h⟩
  | op :: ops, b, f, sp, h, hz, ⟨h1, h2, h3⟩ => by
    obtain ⟨o, b1, e1, es, hr⟩ := small_step hN hcap h hz h1 h2
    obtain ⟨os, b2, e2, es2, hr2⟩ := small_run hN hcap ops hr (hz.after h1) h3
    refine ⟨o :: os, b2, ?_, by simp [specShows, es, es2], hr2⟩
    simp only [SB.run, e1, bind_ok, e2]; rfl

/-- Legality alone (of the calls on a table). -/
def LegalOps (N : Nat) : Table → List Op → Prop
  | _, [] => True
  | f, op :: ops => legal N f op ∧ LegalOps N (after f op) ops

theorem LegalRun.ops {N CAP : Nat} : ∀ {ops : List Op} {f : Table} {sp : Bool},
    LegalRun N CAP f sp ops → LegalOps N f ops
  | [], _, _, _ => trivial
  | _ :: _, _, _, ⟨h1, _, h3⟩ => ⟨h1, h3.ops⟩

theorem block_run {N : Nat} : ∀ (ops : List Op) {b : Sparse.Block} {f : Table}, BRep N b f → Nz f →
    LegalOps N f ops → ∃ os b', blockRun b ops = .ok (os, b') ∧ os.map seen = specShows N f ops
  | [], b, _, _, _, _ => ⟨[], b, rfl, rfl⟩
  | op :: ops, b, f, h, hz, ⟨h1, h3⟩ => by
    obtain ⟨o, b1, e1, es, hr⟩ := block_step h hz h1
    obtain ⟨os, b2, e2, es2⟩ := block_run ops hr (hz.after h1) h3
    refine ⟨o :: os, b2, ?_, by simp [specShows, es, es2]⟩
    simp only [blockRun, e1, bind_ok, e2]; rfl

/-- The empty table. -/
def noItems : Table := fun _ => none

theorem noItems_nz : Nz noItems := by intro i v h; cases h

/-- **C59 (partial).** On every sequence of legal calls without the over-read, from an empty block, a
`SmallBlock` never misbehaves and shows exactly what the table specification says. Missing: sequences
with the over-read (see `C59_fails`). -/
theorem C59_small_block_partial (N CAP : Nat) (hN : 0 < N) (hcap : CAP < 256) (ops : List Op)
    (hl : LegalRun N CAP noItems false ops) :
    ∃ os b, SB.run CAP (SB.empty N CAP) ops = .ok (os, b) ∧ os.map seen = specShows N noItems ops := by
  obtain ⟨os, b, e, es, _⟩ := small_run hN hcap ops (Rep.empty hN) noItems_nz hl
  exact ⟨os, b, e, es⟩

/-- **C59, the full-size block**: `Block` meets the same specification on every legal sequence. -/
theorem C59_block (N : Nat) (ops : List Op) (hl : LegalOps N noItems ops) :
    ∃ os b, blockRun (Sparse.Block.empty N) ops = .ok (os, b) ∧
      os.map seen = specShows N noItems ops :=
  block_run ops (BRep.empty N) noItems_nz hl

example : LegalOps 4 noItems [.getOrInsert 200 5, .getOrInsert 3 6, .getOrInsert 200 9, .remove 3, .set 200 8] ∧
    (match blockRun (Sparse.Block.empty 4)
        [.getOrInsert 200 5, .getOrInsert 3 6, .getOrInsert 200 9, .remove 3, .set 200 8, .get 200] with
      | .ok (os, _) => os.map fun o => (o.item, o.inserted)
      | .error _ => []) = [(5, true), (6, true), (5, false), (0, false), (0, false), (8, false)] := by
  refine ⟨by simp [LegalOps, legal, after, noItems, width], by decide +kernel⟩

theorem noOverread_one {CAP : Nat} : ∀ {ops : List Op} {f : Table} {sp : Bool},
    LegalOps 1 f ops → LegalRun 1 CAP f sp ops
  | [], _, _, _ => trivial
  | op :: ops, f, sp, ⟨h1, h3⟩ => by
    refine ⟨h1, ?_, noOverread_one h3⟩
    cases op with
    | remove i =>
      rintro ⟨_, _, h⟩
      have : i < width 1 := h1.1
      unfold width at this
      omega
    | _ => exact id

/-- **C59, one mask word**: with a 64-bit mask the over-read cannot happen: `SmallBlock` and `Block`
show the same on every legal sequence of calls. -/
theorem C59_one_word (CAP : Nat) (hcap : CAP < 256) (ops : List Op)
    (hl : LegalOps 1 noItems ops) :
    ∃ os os' b b', SB.run CAP (SB.empty 1 CAP) ops = .ok (os, b) ∧
      blockRun (Sparse.Block.empty 1) ops = .ok (os', b') ∧ os.map seen = os'.map seen := by
  obtain ⟨os, b, e, es⟩ := C59_small_block_partial 1 CAP (by decide) hcap ops (noOverread_one hl)
  obtain ⟨os', b', e', es'⟩ := C59_block 1 ops hl
  exact ⟨os, os', b, b', e, e', by rw [es, es']⟩

theorem SB.run_append {CAP : Nat} : ∀ (xs ys : List Op) (b : SB), SB.run CAP b (xs ++ ys) = (do
    let (os, b) ← SB.run CAP b xs
    let (os', b) ← SB.run CAP b ys
    return (os ++ os', b))
  | [], ys, b => by
    simp only [List.nil_append, SB.run, bind_ok]
    cases SB.run CAP b ys <;> rfl
  | x :: xs, ys, b => by
    simp only [List.cons_append, SB.run]
    cases b.step CAP x with
    | error e => rfl
    | ok p =>
      simp only [bind_ok, SB.run_append xs ys]
      cases SB.run CAP p.2 xs with
      | error e => rfl
      | ok q =>
        simp only [bind_ok, pure_eq_ok]
        cases SB.run CAP q.2 ys with
        | error e => rfl
        | ok r => rfl

/-- **C59 fails** as stated: whenever legal calls lead to the over-reading call, that call is undefined
behaviour of `SmallBlock` — although it is legal, and `Block` performs it. -/
theorem C59_fails (N CAP : Nat) (hN : 0 < N) (hcap : CAP < 256) (ops : List Op) (op : Op)
    (hl : LegalRun N CAP noItems false ops)
    (hop : legal N (afterRun N CAP noItems false ops).1 op)
    (ho : overreads N CAP (afterRun N CAP noItems false ops).1 (afterRun N CAP noItems false ops).2 op) :
    SB.run CAP (SB.empty N CAP) (ops ++ [op]) = .error .ub := by
  obtain ⟨os, b, e, _, hr⟩ := small_run hN hcap ops (Rep.empty hN) noItems_nz hl
  rw [SB.run_append]
  rw [e]
  cases op with
  | remove i =>
    obtain ⟨h1, h2, h3⟩ := ho
    obtain ⟨v, hv⟩ := Option.isSome_iff_exists.1 hop.2
    have hr' : Rep N CAP b (afterRun N CAP noItems false ops).1 false := by
      have := hr
      unfold noItems at h1 ⊢
      rw [h1] at this; exact this
    rw [held_eq] at h2
    simp only [bind_ok, SB.run, SB.step, hr'.removeU_ub hN hv h3 h2]
    rfl
  | get i => exact absurd ho id
  | getOrInsert i v => exact absurd ho id
  | set i v => exact absurd ho id

/-- Four mask words, inline capacity 7 (the shape of tests/common.rs): seven insertions, then a removal of
position 3. -/
def exFill : List Op :=
  [.getOrInsert 3 10, .getOrInsert 70 11, .getOrInsert 5 12, .getOrInsert 200 13, .getOrInsert 130 14,
   .getOrInsert 255 15, .getOrInsert 64 16]

def exMore : List Op :=
  exFill ++ [.set 64 26, .get 130, .remove 255, .getOrInsert 1 17, .getOrInsert 2 18, .remove 3, .get 70, .get 3,
    .getOrInsert 70 99]

/-- The hypotheses of `C59_small_block_partial` hold for a run that fills the inline array, removes from
the last word, spills and removes again. -/
example : LegalRun 4 7 noItems false exMore := by
  simp [exMore, exFill, LegalRun, legal, overreads, after, spills, noItems, width, held]
  decide +kernel

/-- The hypotheses of `C59_fails` hold, and the model fails there by evaluation, where `Block` works. -/
example : LegalRun 4 7 noItems false exFill ∧
    legal 4 (afterRun 4 7 noItems false exFill).1 (.remove 3) ∧
    overreads 4 7 (afterRun 4 7 noItems false exFill).1 (afterRun 4 7 noItems false exFill).2 (.remove 3) ∧
    SB.run 7 (SB.empty 4 7) (exFill ++ [.remove 3]) = .error .ub ∧
    (blockRun (Sparse.Block.empty 4) (exFill ++ [.remove 3])).isOk := by
  refine ⟨?_, ?_, ?_, by decide +kernel, by decide +kernel⟩
  · simp [exFill, LegalRun, legal, overreads, after, spills, noItems, width, held]
  · simp [exFill, afterRun, legal, after, noItems, width]
  · refine ⟨by decide +kernel, by decide +kernel, by decide⟩

/-- The hypothesis of `C59_one_word` holds for a run that spills past a capacity of 2 and removes. -/
example : LegalOps 1 noItems [.getOrInsert 63 1, .getOrInsert 0 2, .remove 63, .getOrInsert 5 3,
    .getOrInsert 6 4, .set 0 9, .remove 6, .get 0] := by
  simp [LegalOps, legal, after, noItems, width]

end Hibit.Props
