import Verif.Threads.Multi
import Verif.Builds.Mat
/-!
# A tree of programs in a given memory
-/
namespace Hibit.Threads
open Hibit Hibit.Dense Hibit.Bytes

/-- What a program finds in the memory `h`. -/
def Prog.at {β : Type} (p : Prog β) (h : BHeap) : R β := do
  let r ← p.alone h
  return r.1

/-- The tree that reads the memory `h`. -/
def PImpl.at {S C δ : Type} (P : PImpl S C δ) (h : BHeap) : Impl S C δ where
  N := P.N
  D := P.D
  exact := P.exact
  data := fun s k li => (P.data s k li).at h
  dataU := fun s k li => (P.dataU s k li).at h
  new := fun s => (P.new s).at h
  select := fun c s n i => (P.select c s n i).at h
  selectU := fun c s n i => (P.selectU c s n i).at h
  curData := fun c s i => (P.curData c s i).at h
  curDataU := fun c s i => (P.curDataU c s i).at h

/-- The methods only load. -/
structure LoadsAll {S C δ : Type} (P : PImpl S C δ) : Prop where
  data : ∀ s k li, Loads (P.data s k li)
  dataU : ∀ s k li, Loads (P.dataU s k li)
  new : ∀ s, Loads (P.new s)
  select : ∀ c s n i, Loads (P.select c s n i)
  selectU : ∀ c s n i, Loads (P.selectU c s n i)
  curData : ∀ c s i, Loads (P.curData c s i)
  curDataU : ∀ c s i, Loads (P.curDataU c s i)

theorem Loads.alone {β : Type} {p : Prog β} (hp : Loads p) : ∀ {h h' : BHeap} {b : β}, p.alone h = .ok (b, h') →
    h' = h ∧ ∀ g, Within h.block g → p.alone g = .ok (b, g) := by
  induction p with
  | ret b => intro h h' b' e; cases e; exact ⟨rfl, fun _ _ => rfl⟩
  | err e => intro h h' b' e; cases e
  | act a k ih =>
    intro h h' b' e
    obtain ⟨⟨p, off, size, align, rfl⟩, hk⟩ := hp
    obtain ⟨r, e1, e2⟩ := bind_inv e
    obtain ⟨bl, e3, e4⟩ := bind_inv e1
    obtain ⟨v, e5, e6⟩ := bind_inv e4
    cases e6
    obtain ⟨e7, e8⟩ := ih v (hk v) e2
    refine ⟨e7, fun g hg => ?_⟩
    have hl : look g.block p = some bl := by
      have := unwrapU_eq_ok e3
      cases p with
      | heap x => exact hg x bl this
      | stat n => exact this
    show ((Act.load p off size align).exec g >>= fun r => (k r.1).alone r.2) = _
    have : (Act.load p off size align).exec g = .ok (v, g) := by
      show (unwrapU (look g.block p) >>= fun b => Bytes.load b off size align >>= fun v => .ok (v, g)) = _
      rw [hl]
      show (Bytes.load bl off size align >>= _) = _
      rw [e5]
      rfl
    rw [this]
    exact e8 g hg

theorem Loads.finds {β : Type} {p : Prog β} (hp : Loads p) (h0 : BHeap) : Finds p h0.block (p.at h0) := by
  intro b e h hw Z
  obtain ⟨r, e1, e2⟩ := bind_inv e
  obtain ⟨b', h'⟩ := r
  cases e2
  rw [hp.guard]
  exact (hp.alone e1).2 h hw

theorem Finds.at {β : Type} {p : Prog β} {h0 : BHeap} {x : R β} (hf : Finds p h0.block x) : Le x (p.at h0) := by
  intro b e
  have := hf b e h0 (fun _ _ h => h) (fun _ => false)
  have hg : p.guard (fun _ => false) = p := by
    clear this hf
    induction p with
    | ret b => rfl
    | err e => rfl
    | act a k ih =>
      have hs : a.spares (fun _ => false) = true := by
        unfold Act.spares
        split <;> rfl
      show (if a.spares (fun _ => false) then Prog.act a (fun r => (k r).guard (fun _ => false)) else .err .ub) = _
      rw [if_pos hs]
      congr 1
      funext r
      exact ih r
  rw [hg] at this
  unfold Prog.at
  rw [this]
  rfl

section
variable {S C δ : Type} {P : PImpl S C δ}

theorem LoadsAll.agree (h : LoadsAll P) (h0 : BHeap) (s : S) : Agree P (P.at h0) s s h0.block :=
  ⟨rfl, rfl, rfl, fun k li => (h.data s k li).finds h0, fun k li => (h.dataU s k li).finds h0, (h.new s).finds h0,
    fun c n i => (h.select c s n i).finds h0, fun c n i => (h.selectU c s n i).finds h0,
    fun c i => (h.curData c s i).finds h0, fun c i => (h.curDataU c s i).finds h0⟩

theorem priv_loads (I : Impl S C δ) : LoadsAll (privImpl I) :=
  ⟨fun _ _ _ => Loads.lift, fun _ _ _ => Loads.lift, fun _ => Loads.lift, fun _ _ _ _ => Loads.lift,
    fun _ _ _ _ => Loads.lift, fun _ _ _ => Loads.lift, fun _ _ _ => Loads.lift⟩

theorem Loads.priv {β γ : Type} {x : R β} {f : β → Prog γ} (h : ∀ b, Loads (f b)) : Loads (Prog.lift x >>= f) :=
  Loads.bind h Loads.lift

theorem Loads.ite {β : Type} {c : Prop} [Decidable c] {p q : Prog β} (h1 : Loads p) (h2 : Loads q) :
    Loads (if c then p else q) := by split <;> assumption

theorem terminalLoop_loads (indices : List Nat) : ∀ (ns : List Nat) (p : Ptr), Loads (terminalLoop indices ns p)
  | [], _ => Loads.ret
  | _ :: ns, p => Loads.priv fun i => Loads.bind (fun q => terminalLoop_loads indices ns q) (getChildPtr_loads p i)

theorem getTerminalNode_loads (D : Nat) (root : Ptr) (indices : List Nat) : Loads (getTerminalNode D root indices) :=
  Loads.bind (fun _ => Loads.priv fun _ => Loads.ret) (terminalLoop_loads _ _ _)

theorem dense_loads (α : Type) (D : Nat) : LoadsAll (denseImpl α D) := by
  have ht : ∀ (t : Tree α) k li, Loads (treeData D t k li) := fun t k li =>
    Loads.bind (fun r => Loads.bind (fun d => Loads.priv fun key => Loads.ite
      (Loads.priv fun v => Loads.priv fun v => Loads.ret) Loads.ret) (getChildIdx_loads _ _)) (getTerminalNode_loads _ _ _)
  refine ⟨ht, fun t k li => Loads.bind (fun _ => Loads.lift) (ht t k li), fun _ => Loads.ret, fun c s n i => ?_,
    fun c s n i => ?_, fun c s i => ?_, fun c s i => ?_⟩
  · refine Loads.ite (Loads.bind (fun _ => Loads.ret) (getMask_loads _)) (Loads.priv fun prev => ?_)
    refine Loads.bind (fun has => Loads.bind (fun node => ?_) (getChildPtr_loads _ _)) (contains_loads _ _)
    exact Loads.priv fun _ => Loads.priv fun _ => Loads.bind (fun _ => Loads.ret) (getMask_loads _)
  · refine Loads.ite (Loads.bind (fun _ => Loads.ret) (getMask_loads _)) (Loads.priv fun prev => ?_)
    refine Loads.bind (fun node => ?_) (getChildPtr_loads _ _)
    exact Loads.priv fun _ => Loads.bind (fun _ => Loads.ret) (getMask_loads _)
  · refine Loads.priv fun node => Loads.bind (fun has => Loads.ite ?_ Loads.ret) (contains_loads _ _)
    exact Loads.bind (fun _ => Loads.priv fun _ => Loads.priv fun _ => Loads.ret) (getChildIdx_loads _ _)
  · exact Loads.priv fun node => Loads.bind (fun _ => Loads.priv fun _ => Loads.lift) (getChildIdx_loads _ _)

theorem map_loads {ε : Type} (f : δ → ε) (h : LoadsAll P) : LoadsAll (mapP P f) :=
  ⟨fun s k li => Loads.bind (fun _ => Loads.ret) (h.data s k li),
    fun s k li => Loads.bind (fun _ => Loads.ret) (h.dataU s k li), h.new, h.select, h.selectU,
    fun c s i => Loads.bind (fun _ => Loads.ret) (h.curData c s i),
    fun c s i => Loads.bind (fun _ => Loads.ret) (h.curDataU c s i)⟩

theorem union_loads {S0 C0 δ0 S1 C1 δ1 : Type} {P0 : PImpl S0 C0 δ0} {P1 : PImpl S1 C1 δ1} (h0 : LoadsAll P0)
    (h1 : LoadsAll P1) : LoadsAll (unionP P0 P1) := by
  have hs : ∀ c s n i, Loads ((unionP P0 P1).select c s n i) := fun c s n i =>
    Loads.bind (fun _ => Loads.bind (fun _ => Loads.ret) (h1.select _ _ _ _)) (h0.select _ _ _ _)
  have hc : ∀ c s i, Loads ((unionP P0 P1).curData c s i) := fun c s i =>
    Loads.bind (fun _ => Loads.bind (fun _ => Loads.ite Loads.ret Loads.ret) (h1.curData _ _ _)) (h0.curData _ _ _)
  have hd : ∀ s k li, Loads ((unionP P0 P1).data s k li) := fun s k li =>
    Loads.bind (fun _ => Loads.bind (fun _ => Loads.ite Loads.ret Loads.ret) (h1.data _ _ _)) (h0.data _ _ _)
  exact ⟨hd, fun s k li => Loads.bind (fun _ => Loads.lift) (hd s k li),
    fun s => Loads.bind (fun _ => Loads.bind (fun _ => Loads.ret) (h1.new _)) (h0.new _), hs, hs, hc,
    fun c s i => Loads.bind (fun _ => Loads.lift) (hc c s i)⟩

theorem inter_loads {S0 C0 δ0 S1 C1 δ1 : Type} {P0 : PImpl S0 C0 δ0} {P1 : PImpl S1 C1 δ1} (h0 : LoadsAll P0)
    (h1 : LoadsAll P1) : LoadsAll (interP P0 P1) :=
  ⟨fun s k li => Loads.bind (fun _ => Loads.bind (fun _ => Loads.lift) (h1.data _ _ _)) (h0.data _ _ _),
    fun s k li => Loads.bind (fun _ => Loads.bind (fun _ => Loads.ret) (h1.dataU _ _ _)) (h0.dataU _ _ _),
    fun s => Loads.bind (fun _ => Loads.bind (fun _ => Loads.ret) (h1.new _)) (h0.new _),
    fun c s n i => Loads.bind (fun _ => Loads.bind (fun _ => Loads.ret) (h1.select _ _ _ _)) (h0.select _ _ _ _),
    fun c s n i => Loads.bind (fun _ => Loads.bind (fun _ => Loads.ret) (h1.selectU _ _ _ _)) (h0.selectU _ _ _ _),
    fun c s i => Loads.bind (fun _ => Loads.bind (fun _ => Loads.lift) (h1.curData _ _ _)) (h0.curData _ _ _),
    fun c s i => Loads.bind (fun _ => Loads.bind (fun _ => Loads.ret) (h1.curDataU _ _ _)) (h0.curDataU _ _ _)⟩

theorem muGather_loads {p : S → Prog (Option δ)} (h : ∀ s, Loads (p s)) :
    ∀ (ss : List S) (acc : List δ), Loads (muGather p ss acc)
  | [], _ => Loads.ret
  | s :: ss, acc => Loads.bind (fun x => by
      cases x with
      | none => exact muGather_loads h ss acc
      | some x => exact Loads.priv fun acc => muGather_loads h ss acc) (h s)

theorem muGatherU_loads {p : S → Prog (Option δ)} (h : ∀ s, Loads (p s)) : ∀ (ss : List S), Loads (muGatherU p ss)
  | [] => Loads.ret
  | s :: ss => Loads.bind (fun x => Loads.bind (fun r => by cases x <;> exact Loads.ret) (muGatherU_loads h ss)) (h s)

theorem avCursors_loads {p : S → Prog C} (h : ∀ s, Loads (p s)) :
    ∀ (ss : List S) (acc : List (S × C)), Loads (avCursors p ss acc)
  | [], _ => Loads.ret
  | s :: ss, _ => Loads.bind (fun _ => Loads.priv fun acc => avCursors_loads h ss acc) (h s)

theorem muSelectRoot_loads {p : C → S → Prog (Mask × C)} (h : ∀ c s, Loads (p c s)) :
    ∀ (cs : List (S × C)) (acc : Mask), Loads (muSelectRoot p cs acc)
  | [], _ => Loads.ret
  | (s, c) :: rest, _ => Loads.bind (fun _ => Loads.bind (fun _ => Loads.ret) (muSelectRoot_loads h rest _)) (h c s)

theorem muSelectSome_loads {p : C → S → Prog (Mask × C)} (h : ∀ c s, Loads (p c s)) :
    ∀ (ks : List Nat) (cs : List (S × C)) (ne : List Nat) (acc : Mask), Loads (muSelectSome p ks cs ne acc)
  | [], _, _, _ => Loads.ret
  | _ :: ks, _, _, _ => Loads.priv fun _ => Loads.bind (fun _ => Loads.priv fun _ => Loads.priv fun _ =>
      muSelectSome_loads h ks _ _ _) (h _ _)

theorem muSelect_loads {N : Nat} {p : Nat → Nat → C → S → Prog (Mask × C)} (h : ∀ n i c s, Loads (p n i c s))
    (c : MUCursor S C) (n i : Nat) : Loads (muSelect N p c n i) :=
  Loads.ite (Loads.bind (fun _ => Loads.ret) (muSelectRoot_loads (h 0 i) _ _))
    (Loads.priv fun _ => Loads.priv fun _ => Loads.bind (fun _ => Loads.priv fun _ => Loads.ret)
      (muSelectSome_loads (h n i) _ _ _ _))

theorem muCursorData_loads {p : C → S → Prog (Option δ)} (h : ∀ c s, Loads (p c s)) (cs : List (S × C)) :
    ∀ ks : List Nat, Loads (muCursorData p cs ks)
  | [] => Loads.ret
  | _ :: ks => Loads.priv fun _ => Loads.bind (fun x => Loads.bind (fun _ => by cases x <;> exact Loads.ret)
      (muCursorData_loads h cs ks)) (h _ _)

theorem multiUnion_loads (h : LoadsAll P) : LoadsAll (multiUnionP P) := by
  have hc : ∀ c s i, Loads ((multiUnionP P).curData c s i) := fun c s i =>
    Loads.ite trivial (Loads.priv fun _ => Loads.ite Loads.ret (Loads.bind (fun _ => Loads.ret)
      (muCursorData_loads (fun c s => h.curData c s i) _ _)))
  exact ⟨fun s k li => Loads.bind (fun _ => Loads.ite Loads.ret Loads.ret) (muGather_loads (fun s => h.data s k li) _ _),
    fun s k li => muGatherU_loads (fun s => h.data s k li) _,
    fun s => Loads.bind (fun _ => Loads.ret) (avCursors_loads h.new _ _),
    fun c s n i => muSelect_loads (fun n i c s => h.select c s n i) _ _ _,
    fun c s n i => muSelect_loads (fun n i c s => h.select c s n i) _ _ _, hc,
    fun c s i => Loads.bind (fun _ => Loads.lift) (hc c s i)⟩

theorem miGather_loads {p : S → Prog (Option δ)} (h : ∀ s, Loads (p s)) :
    ∀ (ss : List S) (acc : List δ), Loads (miGather p ss acc)
  | [], _ => Loads.ret
  | s :: ss, acc => Loads.bind (fun x => by
      cases x with
      | none => exact Loads.ret
      | some x => exact Loads.priv fun acc => miGather_loads h ss acc) (h s)

theorem miGatherU_loads {p : S → Prog δ} (h : ∀ s, Loads (p s)) : ∀ (ss : List S), Loads (miGatherU p ss)
  | [] => Loads.ret
  | s :: ss => Loads.bind (fun _ => Loads.bind (fun _ => Loads.ret) (miGatherU_loads h ss)) (h s)

theorem miCursors_loads {p : S → Prog C} (h : ∀ s, Loads (p s)) :
    ∀ (ss : List S) (acc : List C), Loads (miCursors p ss acc)
  | [], _ => Loads.ret
  | s :: ss, _ => Loads.bind (fun _ => Loads.priv fun acc => miCursors_loads h ss acc) (h s)

theorem miSelectRest_loads {p : C → S → Prog (Mask × C)} (h : ∀ c s, Loads (p c s)) :
    ∀ (cs : List C) (ss : List S) (acc : Mask), Loads (miSelectRest p cs ss acc)
  | [], _, _ => Loads.ret
  | _ :: cs, _, _ => Loads.priv fun _ => Loads.bind (fun _ => Loads.bind (fun _ => Loads.ret)
      (miSelectRest_loads h cs _ _)) (h _ _)

theorem miSelectAll_loads {p : C → S → Prog (Mask × C)} (h : ∀ c s, Loads (p c s)) (cs : List C) (ss : List S) :
    Loads (miSelectAll p cs ss) := by
  cases cs with
  | nil => exact Loads.ret
  | cons c cs =>
    exact Loads.priv fun _ => Loads.bind (fun _ => Loads.bind (fun _ => Loads.ret) (miSelectRest_loads h cs _ _)) (h _ _)

theorem miCursorData_loads {p : C → S → Prog δ} (h : ∀ c s, Loads (p c s)) :
    ∀ (cs : List C) (ss : List S), Loads (miCursorData p cs ss)
  | [], _ => Loads.ret
  | _ :: cs, _ => Loads.priv fun _ => Loads.bind (fun _ => Loads.bind (fun _ => Loads.ret)
      (miCursorData_loads h cs _)) (h _ _)

theorem multiInter_loads (h : LoadsAll P) : LoadsAll (multiInterP P) := by
  have hd : ∀ c s i, Loads ((multiInterP P).curDataU c s i) := fun c s i =>
    miCursorData_loads (fun c s => h.curDataU c s i) _ _
  refine ⟨fun s k li => miGather_loads (fun s => h.data s k li) _ _,
    fun s k li => miGatherU_loads (fun s => h.dataU s k li) _,
    fun s => Loads.bind (fun _ => Loads.ret) (miCursors_loads h.new _ _), fun c s n i => ?_, fun c s n i => ?_,
    fun c s i => Loads.priv fun _ => Loads.ite Loads.ret (Loads.bind (fun _ => Loads.ret) (hd c s i)), hd⟩
  · refine Loads.ite Loads.ret (Loads.bind (fun r => ?_) (miSelectAll_loads (fun c s => h.select c s n i) _ _))
    cases r <;> exact Loads.ret
  · refine Loads.bind (fun r => ?_) (miSelectAll_loads (fun c s => h.selectU c s n i) _ _)
    cases r <;> exact Loads.ret

end

/-! ## The contract -/

/-- The claim of exact hierarchy is withdrawn unless it is right. -/
def relax {S C δ : Type} (x : Bool) (I : Impl S C δ) : Impl S C δ := { I with exact := I.exact && x }

/-- The same for programs. -/
def relaxP {S C δ : Type} (x : Bool) (P : PImpl S C δ) : PImpl S C δ := { P with exact := P.exact && x }

theorem relax_true {S C δ : Type} (I : Impl S C δ) : relax true I = I := by
  unfold relax; rw [Bool.and_true]

theorem relaxP_loads {S C δ : Type} {P : PImpl S C δ} {x : Bool} (h : LoadsAll P) : LoadsAll (relaxP x P) :=
  ⟨h.data, h.dataU, h.new, h.select, h.selectU, h.curData, h.curDataU⟩

section
variable {S' S C δ : Type} {P : PImpl S' C δ} {I : Impl S C δ} {s' : S'} {s : S} {h0 : BHeap} {x : Bool}

/-- The contract of the functions is one of the programs in memory `h0`. -/
theorem lawful_at (h : Agree P I s' s h0.block) {T : TreeSpec δ} {K : CursorRel C} (L : Lawful (relax x I) s T K) :
    Lawful (relax x (P.at h0)) s' T K where
  cfg := by show ValidCfg P.N P.D; rw [h.N, h.D]; exact L.cfg
  wf := by show SpecWf (width P.N) P.D (P.exact && x) T; rw [h.N, h.D, h.exact]; exact L.wf
  data_eq p hp hl := by
    change ValidPath (width P.N) p at hp; change p.length = P.D at hl
    rw [h.N] at hp; rw [h.D] at hl
    show (P.data s' (unpath (width P.N) p) p).at h0 = _
    rw [h.N]
    exact (h.data _ _).at _ (L.data_eq p hp hl)
  dataU_eq p d hp hl hc := by
    change ValidPath (width P.N) p at hp; change p.length = P.D at hl
    rw [h.N] at hp; rw [h.D] at hl
    show (P.dataU s' (unpath (width P.N) p) p).at h0 = _
    rw [h.N]
    exact (h.dataU _ _).at _ (L.dataU_eq p d hp hl hc)
  new_ok := by
    obtain ⟨c, e, hc⟩ := L.new_ok
    exact ⟨c, h.new.at _ e, hc⟩
  pos_inv := L.pos_inv
  posC_pos := L.posC_pos
  pos_take := L.pos_take
  select_root c i hc hi := by
    obtain ⟨m, c', e, g⟩ := L.select_root c i hc hi
    exact ⟨m, c', (h.select _ _ _).at _ e, g.1.trans h.N.symm, g.2⟩
  selectU_root c i hc hi := by
    obtain ⟨m, c', e, g⟩ := L.selectU_root c i hc hi
    exact ⟨m, c', (h.selectU _ _ _).at _ e, g.1.trans h.N.symm, g.2⟩
  select_node c p i hc hp hi hl := by
    change ValidPath (width P.N) p at hp; change i < width P.N at hi; change p.length + 2 ≤ P.D at hl
    rw [h.N] at hp hi; rw [h.D] at hl
    obtain ⟨m, c', e, g⟩ := L.select_node c p i hc hp hi hl
    exact ⟨m, c', (h.select _ _ _).at _ e, g.1.trans h.N.symm, g.2⟩
  selectU_node c p i hc hp hi hl hb := by
    change ValidPath (width P.N) p at hp; change i < width P.N at hi; change p.length + 2 ≤ P.D at hl
    rw [h.N] at hp hi; rw [h.D] at hl
    obtain ⟨m, c', e, g⟩ := L.selectU_node c p i hc hp hi hl hb
    exact ⟨m, c', (h.selectU _ _ _).at _ e, g.1.trans h.N.symm, g.2⟩
  curDataU_eq c p i d hc hp hi hl hd := by
    change ValidPath (width P.N) p at hp; change i < width P.N at hi; change p.length + 1 = P.D at hl
    rw [h.N] at hp hi; rw [h.D] at hl
    exact (h.curDataU _ _).at _ (L.curDataU_eq c p i d hc hp hi hl hd)

theorem lawfulC_at (h : Agree P I s' s h0.block) {T : TreeSpec δ} {K : CursorRel C} (L : LawfulC (relax x I) s T K) :
    LawfulC (relax x (P.at h0)) s' T K :=
  { lawful_at h L.toLawful with
    curData_eq := fun c p i hc hp hi hl => by
      change ValidPath (width P.N) p at hp; change i < width P.N at hi; change p.length + 1 = P.D at hl
      rw [h.N] at hp hi; rw [h.D] at hl
      exact (h.curData _ _).at _ (L.curData_eq c p i hc hp hi hl) }

theorem isTree_at (h : Agree P I s' s h0.block) {M : Nat → Option δ} (L : IsTree (relax x I) s M) :
    IsTree (relax x (P.at h0)) s' M := by
  obtain ⟨T, K, L, e⟩ := L
  refine ⟨T, K, lawful_at h L, ?_⟩
  show ∀ i, i < width P.N ^ P.D → T.content (path (width P.N) P.D i) = M i
  rw [h.N, h.D]
  exact e

theorem isTreeC_at (h : Agree P I s' s h0.block) {M : Nat → Option δ} (L : IsTreeC (relax x I) s M) :
    IsTreeC (relax x (P.at h0)) s' M := by
  obtain ⟨T, K, L, e⟩ := L
  refine ⟨T, K, lawfulC_at h L, ?_⟩
  show ∀ i, i < width P.N ^ P.D → T.content (path (width P.N) P.D i) = M i
  rw [h.N, h.D]
  exact e

end
end Hibit.Threads
