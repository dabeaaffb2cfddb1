import Verif.Threads.Read
/-!
# Multi-way union and intersection, access by access

A tree made of programs that only load is, in a given memory, a tree made of functions (`PImpl.at`). So the contract of
the combinators carries over from the functions of `Ops/Model.lean` to programs.
-/
namespace Hibit.Threads
open Hibit Hibit.Dense Hibit.Bytes

/-! ## Model -/

/-- _multi_union.rs:40-48, as `Hibit.muGather`. -/
def muGather {S δ : Type} (data : S → Prog (Option δ)) : List S → List δ → Prog (List δ)
  | [], acc => .ret acc
  | s :: ss, acc => do
    let d ← data s
    match d with
    | some d => do
      let acc ← Prog.lift (avPush acc d)
      muGather data ss acc
    | none => muGather data ss acc

/-- _multi_union.rs:89-95, as `Hibit.muGatherU`. -/
def muGatherU {S δ : Type} (data : S → Prog (Option δ)) : List S → Prog (List δ)
  | [] => .ret []
  | s :: ss => do
    let d ← data s
    let rest ← muGatherU data ss
    match d with
    | some d => return d :: rest
    | none => return rest

/-- _multi_union.rs:155-170 (the cursors), as `Hibit.avCursors`. -/
def avCursors {S C : Type} (new : S → Prog C) : List S → List (S × C) → Prog (List (S × C))
  | [], acc => .ret acc
  | s :: ss, acc => do
    let c ← new s
    let acc ← Prog.lift (avPush acc (s, c))
    avCursors new ss acc

/-- _multi_union.rs:185-191, as `Hibit.muSelectRoot`. -/
def muSelectRoot {S C : Type} (sel : C → S → Prog (Mask × C)) :
    List (S × C) → Mask → Prog (Mask × List (S × C))
  | [], acc => .ret (acc, [])
  | (s, c) :: rest, acc => do
    let r ← sel c s
    let q ← muSelectRoot sel rest (orMask acc r.1)
    return (q.1, (s, r.2) :: q.2)

/-- _multi_union.rs:202-209, as `Hibit.muSelectSome`. -/
def muSelectSome {S C : Type} (sel : C → S → Prog (Mask × C)) :
    List Nat → List (S × C) → List Nat → Mask → Prog (Mask × List (S × C) × List Nat)
  | [], cs, ne, acc => .ret (acc, cs, ne)
  | k :: ks, cs, ne, acc => do
    let sc ← Prog.lift (getU cs k)
    let r ← sel sc.2 sc.1
    let cs ← Prog.lift (setU cs k (sc.1, r.2))
    let ne ← Prog.lift (if !isZero r.1 then avPushU ne k else .ok ne)
    muSelectSome sel ks cs ne (orMask acc r.1)

/-- _multi_union.rs:180-222 `select_level_node_unchecked`, as `Hibit.muSelect`. -/
def muSelect {S C : Type} (N : Nat) (sel : Nat → Nat → C → S → Prog (Mask × C)) (c : MUCursor S C) (n i : Nat) :
    Prog (Mask × MUCursor S C) :=
  if n = 0 then do
    let r ← muSelectRoot (sel 0 i) c.cursors (zeroMask N)
    return (r.1, { c with cursors := r.2 })
  else do
    let lvls ← Prog.lift (setU c.lvls (n - 1) [])
    let ks ← Prog.lift (if n = 1 then .ok (List.range (c.cursors.length % 256)) else getU lvls (n - 2))
    let r ← muSelectSome (sel n i) ks c.cursors [] (zeroMask N)
    let lvls ← Prog.lift (setU lvls (n - 1) r.2.2)
    return (r.1, ⟨r.2.1, lvls⟩)

/-- _multi_union.rs:271-281, as `Hibit.muCursorData`. -/
def muCursorData {S C δ : Type} (data : C → S → Prog (Option δ)) (cs : List (S × C)) : List Nat → Prog (List δ)
  | [] => .ret []
  | k :: ks => do
    let sc ← Prog.lift (getU cs k)
    let d ← data sc.2 sc.1
    let rest ← muCursorData data cs ks
    match d with
    | some d => return d :: rest
    | none => return rest

/-- _multi_union.rs:225-243, as `Hibit.muCurData`. -/
def muCurData {S C δ : Type} (D : Nat) (data : C → S → Prog (Option δ)) (c : MUCursor S C) : Prog (Option (List δ)) :=
  if D = 1 then .err .panic
  else do
    let ne ← Prog.lift (unwrapU c.lvls.getLast?)
    if ne.isEmpty then return none
    else do
      let ds ← muCursorData data c.cursors ne
      return some ds

/-- _multi_union.rs:26-68 (tree) and 147-251 (cursor), as `Hibit.multiUnionImpl`. -/
def multiUnionP {S C δ : Type} (I : PImpl S C δ) : PImpl (List S) (MUCursor S C) (List δ) where
  N := I.N
  D := I.D
  exact := I.exact
  data := fun ss index li => do
    let ds ← muGather (fun s => I.data s index li) ss []
    if ds.isEmpty then return none else return some ds
  dataU := fun ss index li => muGatherU (fun s => I.data s index li) ss
  new := fun ss => do
    let cs ← avCursors I.new ss []
    return ⟨cs, List.replicate (I.D - 1) []⟩
  select := fun c _ n i => muSelect I.N (fun n i c s => I.select c s n i) c n i
  selectU := fun c _ n i => muSelect I.N (fun n i c s => I.select c s n i) c n i
  curData := fun c _ i => muCurData I.D (fun c s => I.curData c s i) c
  curDataU := fun c _ i => do
    let d ← muCurData I.D (fun c s => I.curData c s i) c
    Prog.lift (unwrapU d)

/-- _multi_intersection.rs:92-116, as `Hibit.miGather`. -/
def miGather {S δ : Type} (data : S → Prog (Option δ)) : List S → List δ → Prog (Option (List δ))
  | [], acc => .ret (some acc)
  | s :: ss, acc => do
    let d ← data s
    match d with
    | some d => do
      let acc ← Prog.lift (avPush acc d)
      miGather data ss acc
    | none => return none

/-- _multi_intersection.rs:286-292, as `Hibit.miGatherU`. -/
def miGatherU {S δ : Type} (dataU : S → Prog δ) : List S → Prog (List δ)
  | [] => .ret []
  | s :: ss => do
    let d ← dataU s
    let rest ← miGatherU dataU ss
    return d :: rest

/-- _multi_intersection.rs:347-352, as `Hibit.miCursors`. -/
def miCursors {S C : Type} (new : S → Prog C) : List S → List C → Prog (List C)
  | [], acc => .ret acc
  | s :: ss, acc => do
    let c ← new s
    let acc ← Prog.lift (avPush acc c)
    miCursors new ss acc

/-- _multi_intersection.rs:382-388, 419-425, as `Hibit.miSelectRest`. -/
def miSelectRest {S C : Type} (sel : C → S → Prog (Mask × C)) : List C → List S → Mask → Prog (Mask × List C)
  | [], _, acc => .ret (acc, [])
  | c :: cs, ss, acc => do
    let s ← Prog.lift (unwrapU ss.head?)
    let r ← sel c s
    let q ← miSelectRest sel cs ss.tail (andMask acc r.1)
    return (q.1, r.2 :: q.2)

/-- _multi_intersection.rs:371-388, 408-425, as `Hibit.miSelectAll`. -/
def miSelectAll {S C : Type} (sel : C → S → Prog (Mask × C)) (cs : List C) (ss : List S) :
    Prog (Option (Mask × List C)) :=
  match cs with
  | [] => .ret none
  | c :: cs => do
    let s ← Prog.lift (unwrapU ss.head?)
    let r ← sel c s
    let q ← miSelectRest sel cs ss.tail r.1
    return some (q.1, r.2 :: q.2)

/-- _multi_intersection.rs:363-401 `select_level_node`, as `Hibit.miSelect`. -/
def miSelect {S C : Type} (N D : Nat) (sel : C → S → Prog (Mask × C)) (c : MICursor C) (ss : List S) (n : Nat) :
    Prog (Mask × MICursor C) :=
  if multiCap > c.emptyBelowN then .ret (zeroMask N, c)
  else do
    let r ← miSelectAll sel c.cursors ss
    match r with
    | none => return (zeroMask N, c)
    | some q =>
      return (q.1, ⟨q.2, if isZero q.1 then multiCap else usizeMod - 1, if n = D - 1 then q.1 else c.terminalMask⟩)

/-- _multi_intersection.rs:404-428 `select_level_node_unchecked`, as `Hibit.miSelectU`. -/
def miSelectU {S C : Type} (N : Nat) (sel : C → S → Prog (Mask × C)) (c : MICursor C) (ss : List S) :
    Prog (Mask × MICursor C) := do
  let r ← miSelectAll sel c.cursors ss
  match r with
  | none => return (zeroMask N, c)
  | some q => return (q.1, { c with cursors := q.2 })

/-- _multi_intersection.rs:481-489, as `Hibit.miCursorData`. -/
def miCursorData {S C δ : Type} (dataU : C → S → Prog δ) : List C → List S → Prog (List δ)
  | [], _ => .ret []
  | c :: cs, ss => do
    let s ← Prog.lift (unwrapU ss.head?)
    let d ← dataU c s
    let rest ← miCursorData dataU cs ss.tail
    return d :: rest

/-- _multi_intersection.rs:32-152 (tree) and 338-451 (cursor), as `Hibit.multiInterImpl`. -/
def multiInterP {S C δ : Type} (I : PImpl S C δ) : PImpl (List S) (MICursor C) (List δ) where
  N := I.N
  D := I.D
  exact := false
  data := fun ss index li => miGather (fun s => I.data s index li) ss []
  dataU := fun ss index li => miGatherU (fun s => I.dataU s index li) ss
  new := fun ss => do
    let cs ← miCursors I.new ss []
    return ⟨cs, usizeMod - 1, zeroMask I.N⟩
  select := fun c ss n i => miSelect I.N I.D (fun c s => I.select c s n i) c ss n
  selectU := fun c ss n i => miSelectU I.N (fun c s => I.selectU c s n i) c ss
  curData := fun c ss i => do
    let b ← Prog.lift (getBit c.terminalMask i)
    if !b then return none
    else do
      let ds ← miCursorData (fun c s => I.curDataU c s i) c.cursors ss
      return some ds
  curDataU := fun c ss i => miCursorData (fun c s => I.curDataU c s i) c.cursors ss

/-- multi_map_fold.rs:27-63 (tree) and 79-135 (cursor), as `Hibit.foldImpl`. -/
def foldP {S C δ β : Type} (I : PImpl S C (List δ)) (init : β) (f : β → δ → β) : PImpl S C β :=
  mapP I (fun ds => ds.foldl f init)

/-! ## What they find -/

section
variable {S C δ : Type} {m : Mem}

theorem muGather_finds {p : S → Prog (Option δ)} {d : S → R (Option δ)} (h : ∀ s, Finds (p s) m (d s)) :
    ∀ (ss : List S) (acc : List δ), Finds (muGather p ss acc) m (Hibit.muGather d ss acc)
  | [], acc => Finds.ok _
  | s :: ss, acc => Finds.bind (h s) fun x _ => by
    cases x with
    | none => exact muGather_finds h ss acc
    | some x => exact Finds.priv fun acc _ => muGather_finds h ss acc

theorem muGatherU_finds {p : S → Prog (Option δ)} {d : S → R (Option δ)} (h : ∀ s, Finds (p s) m (d s)) :
    ∀ (ss : List S), Finds (muGatherU p ss) m (Hibit.muGatherU d ss)
  | [] => Finds.ok _
  | s :: ss => Finds.bind (h s) fun x _ => Finds.bind (muGatherU_finds h ss) fun rest _ => by
    cases x <;> exact Finds.ok _

theorem avCursors_finds {p : S → Prog C} {d : S → R C} (h : ∀ s, Finds (p s) m (d s)) :
    ∀ (ss : List S) (acc : List (S × C)), Finds (avCursors p ss acc) m (Hibit.avCursors d ss acc)
  | [], acc => Finds.ok _
  | s :: ss, acc => Finds.bind (h s) fun x _ => Finds.priv fun acc _ => avCursors_finds h ss acc

theorem muCursorData_finds {I : Impl S C δ} {i : Nat} {p : C → S → Prog (Option δ)}
    (h : ∀ c s, Finds (p c s) m (I.curData c s i)) (cs : List (S × C)) :
    ∀ ks : List Nat, Finds (muCursorData p cs ks) m (Hibit.muCursorData I cs i ks)
  | [] => Finds.ok _
  | k :: ks => Finds.priv fun sc _ => by
    obtain ⟨s, c⟩ := sc
    refine Finds.bind (h c s) fun x _ => Finds.bind (muCursorData_finds h cs ks) fun rest _ => ?_
    cases x <;> exact Finds.ok _

theorem muCurData_finds {I : Impl S C δ} {D i : Nat} {p : C → S → Prog (Option δ)} (hD : D = I.D)
    (h : ∀ c s, Finds (p c s) m (I.curData c s i)) (c : MUCursor S C) :
    Finds (muCurData D p c) m (Hibit.muCurData I c i) := by
  subst hD
  refine Finds.ite (fun _ => Finds.err) fun _ => Finds.priv fun ne _ => ?_
  exact Finds.ite (fun _ => Finds.ok _) fun _ => Finds.bind (muCursorData_finds h _ ne) fun _ _ => Finds.ok _

theorem muSelectRoot_finds {I : Impl S C δ} {i : Nat} {p : C → S → Prog (Mask × C)}
    (h : ∀ c s, Finds (p c s) m (I.select c s 0 i)) :
    ∀ (cs : List (S × C)) (acc : Mask), Finds (muSelectRoot p cs acc) m (Hibit.muSelectRoot I i cs acc)
  | [], acc => Finds.ok _
  | (s, c) :: rest, acc => Finds.bind (h c s) fun r _ => by
    obtain ⟨k, c'⟩ := r
    exact Finds.bind (muSelectRoot_finds h rest _) fun _ _ => Finds.ok _

theorem muSelectSome_finds {I : Impl S C δ} {n i : Nat} {p : C → S → Prog (Mask × C)}
    (h : ∀ c s, Finds (p c s) m (I.select c s n i)) :
    ∀ (ks : List Nat) (cs : List (S × C)) (ne : List Nat) (acc : Mask),
      Finds (muSelectSome p ks cs ne acc) m (Hibit.muSelectSome I n i ks cs ne acc)
  | [], _, _, _ => Finds.ok _
  | k :: ks, cs, ne, acc => Finds.priv fun sc _ => by
    obtain ⟨s, c⟩ := sc
    refine Finds.bind (h c s) fun r _ => ?_
    obtain ⟨k', c'⟩ := r
    refine Finds.priv fun cs' _ => ?_
    by_cases hz : isZero k'
    · simp only [hz]
      exact muSelectSome_finds h ks cs' ne _
    · simp only [hz]
      exact Finds.priv fun ne' _ => muSelectSome_finds h ks cs' ne' _

theorem muSelect_finds {I : Impl S C δ} {N : Nat} {p : Nat → Nat → C → S → Prog (Mask × C)} (hN : N = I.N)
    (h : ∀ n i c s, Finds (p n i c s) m (I.select c s n i)) (c : MUCursor S C) (n i : Nat) :
    Finds (muSelect N p c n i) m (Hibit.muSelect I c n i) := by
  subst hN
  refine Finds.ite (fun _ => ?_) fun _ => Finds.priv fun lvls _ => ?_
  · exact Finds.bind (muSelectRoot_finds (h 0 i) _ _) fun _ _ => Finds.ok _
  · have key : ∀ ks, Finds (do
          let r ← muSelectSome (p n i) ks c.cursors [] (zeroMask I.N)
          let lvls ← Prog.lift (setU lvls (n - 1) r.2.2)
          return (r.1, (⟨r.2.1, lvls⟩ : MUCursor S C))) m (do
        let (k, cs, ne) ← Hibit.muSelectSome I n i ks c.cursors [] (zeroMask I.N)
        let lvls ← setU lvls (n - 1) ne
        return (k, (⟨cs, lvls⟩ : MUCursor S C))) := fun ks => by
      refine Finds.bind (muSelectSome_finds (h n i) ks _ _ _) fun r _ => ?_
      exact Finds.priv fun _ _ => Finds.ok _
    by_cases h1 : n = 1
    · simp only [h1, if_true] at key ⊢
      exact key _
    · simp only [h1, if_false] at key ⊢
      exact Finds.priv fun ks _ => key ks

theorem miGather_finds {p : S → Prog (Option δ)} {d : S → R (Option δ)} (h : ∀ s, Finds (p s) m (d s)) :
    ∀ (ss : List S) (acc : List δ), Finds (miGather p ss acc) m (Hibit.miGather d ss acc)
  | [], acc => Finds.ok _
  | s :: ss, acc => Finds.bind (h s) fun x _ => by
    cases x with
    | none => exact Finds.ok _
    | some x => exact Finds.priv fun acc _ => miGather_finds h ss acc

theorem miGatherU_finds {p : S → Prog δ} {d : S → R δ} (h : ∀ s, Finds (p s) m (d s)) :
    ∀ (ss : List S), Finds (miGatherU p ss) m (Hibit.miGatherU d ss)
  | [] => Finds.ok _
  | s :: ss => Finds.bind (h s) fun x _ => Finds.bind (miGatherU_finds h ss) fun _ _ => Finds.ok _

theorem miCursors_finds {p : S → Prog C} {d : S → R C} (h : ∀ s, Finds (p s) m (d s)) :
    ∀ (ss : List S) (acc : List C), Finds (miCursors p ss acc) m (Hibit.miCursors d ss acc)
  | [], acc => Finds.ok _
  | s :: ss, acc => Finds.bind (h s) fun x _ => Finds.priv fun acc _ => miCursors_finds h ss acc

theorem miSelectRest_finds {p : C → S → Prog (Mask × C)} {d : C → S → R (Mask × C)}
    (h : ∀ c s, Finds (p c s) m (d c s)) : ∀ (cs : List C) (ss : List S) (acc : Mask),
      Finds (miSelectRest p cs ss acc) m (Hibit.miSelectRest d cs ss acc)
  | [], _, _ => Finds.ok _
  | c :: cs, ss, acc => Finds.priv fun s _ => Finds.bind (h c s) fun r _ => by
    obtain ⟨k, c'⟩ := r
    exact Finds.bind (miSelectRest_finds h cs _ _) fun _ _ => Finds.ok _

theorem miSelectAll_finds {p : C → S → Prog (Mask × C)} {d : C → S → R (Mask × C)}
    (h : ∀ c s, Finds (p c s) m (d c s)) (cs : List C) (ss : List S) :
    Finds (miSelectAll p cs ss) m (Hibit.miSelectAll d cs ss) := by
  cases cs with
  | nil => exact Finds.ok _
  | cons c cs =>
    refine Finds.priv fun s _ => Finds.bind (h c s) fun r _ => ?_
    obtain ⟨k, c'⟩ := r
    exact Finds.bind (miSelectRest_finds h cs _ _) fun _ _ => Finds.ok _

theorem miCursorData_finds {I : Impl S C δ} {i : Nat} {p : C → S → Prog δ}
    (h : ∀ c s, Finds (p c s) m (I.curDataU c s i)) : ∀ (cs : List C) (ss : List S),
      Finds (miCursorData p cs ss) m (Hibit.miCursorData I i cs ss)
  | [], _ => Finds.ok _
  | c :: cs, ss => Finds.priv fun s _ => Finds.bind (h c s) fun x _ =>
    Finds.bind (miCursorData_finds h cs ss.tail) fun _ _ => Finds.ok _

variable {P : PImpl S C δ} {I : Impl S C δ}

theorem multiUnion_agree (h : ∀ s, Agree P I s s m) (hN : P.N = I.N) (hD : P.D = I.D) (hx : P.exact = I.exact)
    (ss : List S) : Agree (multiUnionP P) (multiUnionImpl I) ss ss m := by
  have hc : ∀ (c : MUCursor S C) i, Finds ((multiUnionP P).curData c ss i) m ((multiUnionImpl I).curData c ss i) :=
    fun c i => muCurData_finds hD (fun c s => (h s).curData c i) c
  refine ⟨hN, hD, hx, fun k li => ?_, fun k li => muGatherU_finds (fun s => (h s).data k li) ss, ?_,
    fun c n i => muSelect_finds hN (fun n i c s => (h s).select c n i) c n i,
    fun c n i => muSelect_finds hN (fun n i c s => (h s).select c n i) c n i, hc,
    fun c i => Finds.bind (hc c i) fun _ _ => Finds.lift _⟩
  · refine Finds.bind (muGather_finds (fun s => (h s).data k li) ss []) fun ds _ => ?_
    exact Finds.ite (fun _ => Finds.ok _) fun _ => Finds.ok _
  · refine Finds.bind (avCursors_finds (fun s => (h s).new) ss []) fun cs _ => ?_
    rw [hD]
    exact Finds.ok _

theorem multiInter_agree (h : ∀ s, Agree P I s s m) (hN : P.N = I.N) (hD : P.D = I.D) (ss : List S) :
    Agree (multiInterP P) (multiInterImpl I) ss ss m := by
  have hd : ∀ (c : MICursor C) i, Finds ((multiInterP P).curDataU c ss i) m ((multiInterImpl I).curDataU c ss i) :=
    fun c i => miCursorData_finds (fun c s => (h s).curDataU c i) _ _
  refine ⟨hN, hD, rfl, fun k li => miGather_finds (fun s => (h s).data k li) ss [],
    fun k li => miGatherU_finds (fun s => (h s).dataU k li) ss, ?_, fun c n i => ?_, fun c n i => ?_, fun c i => ?_, hd⟩
  · refine Finds.bind (miCursors_finds (fun s => (h s).new) ss []) fun cs _ => ?_
    rw [hN]
    exact Finds.ok _
  · show Finds (miSelect P.N P.D _ c ss n) m (Hibit.miSelect I c ss n i)
    rw [hN, hD]
    refine Finds.ite (fun _ => Finds.ok _) fun _ => ?_
    refine Finds.bind (miSelectAll_finds (fun c s => (h s).select c n i) _ _) fun r _ => ?_
    cases r with
    | none => exact Finds.ok _
    | some q => exact Finds.ok _
  · show Finds (miSelectU P.N _ c ss) m (Hibit.miSelectU I c ss n i)
    rw [hN]
    refine Finds.bind (miSelectAll_finds (fun c s => (h s).selectU c n i) _ _) fun r _ => ?_
    cases r with
    | none => exact Finds.ok _
    | some q => exact Finds.ok _
  · refine Finds.priv fun b _ => Finds.ite (fun _ => Finds.ok _) fun _ => ?_
    exact Finds.bind (hd c i) fun _ _ => Finds.ok _

/-- A fold over a multi-tree is the one of the model without memory. -/
theorem fold_agree {S' β : Type} {P : PImpl S' C (List δ)} {I : Impl S C (List δ)} {s' : S'} {s : S} (init : β) (f : β → δ → β)
    (h : Agree P I s' s m) : Agree (foldP P init f) (foldImpl I init f) s' s m := by
  refine ⟨h.N, h.D, h.exact, fun k li => Finds.bind (h.data k li) fun d _ => ?_,
    fun k li => Finds.bind (h.dataU k li) fun _ _ => Finds.ok _, h.new, h.select, h.selectU,
    fun c i => Finds.bind (h.curData c i) fun d _ => ?_,
    fun c i => Finds.bind (h.curDataU c i) fun _ _ => Finds.ok _⟩
  · cases d <;> exact Finds.ok _
  · cases d <;> exact Finds.ok _

end
end Hibit.Threads
