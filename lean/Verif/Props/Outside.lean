import Verif.Props.Climb
import Verif.Props.Ignored
/-
What lies outside of the root is neither seen nor changed (C121), as a statement about the file system and not about
the paths handed to the operating system (which is C39).  The difference is symbolic links, which the operating system
follows.
-/

namespace Ninep.Ufs
open Spec

section
variable {ω H : Type} (host : Host ω H) (user rootPath : GoString)

/-- `A w v` stands for: the two worlds have the same inside of the root, and all open files are inside.  A host keeps
the inside apart if its calls with paths below the root, and those for open files, return the same in both and keep the
relation. -/
def KeepsApart (root : Root) (A : ω → ω → Prop) : Prop :=
  ∀ (c : HCall H) (w v : ω), A w v → (∀ x ∈ c.paths, Below root x) →
    (host.exec c v).2 = (host.exec c w).2 ∧ A (host.exec c w).1 (host.exec c v).1

/-- the same steps, but other processes may do different things outside of the root -/
inductive LabelAlike (A : ω → ω → Prop) : Label ω H → Label ω H → Prop
  | same (l : Label ω H) (h : ∀ w, l ≠ .other w) : LabelAlike A l l
  | other (w v : ω) (h : A w v) : LabelAlike A (.other w) (.other v)

variable {host user rootPath}

theorem unseen_step {A : ω → ω → Prop} (hk : KeepsApart host (rootOf rootPath) A) {p p1 : TProc ω H} {l : Label ω H} {v : ω}
    (ha : A p.world v) (hs : TStep host user rootPath p l p1)
    (hb : ∀ i e, l = .call i e → ∀ x ∈ e.1.paths, Below (rootOf rootPath) x) (ho : ∀ w, l = .other w → ∃ u, A w u) :
    ∃ l' u, LabelAlike A l l' ∧ TStep host user rootPath ⟨v, p.thr⟩ l' ⟨u, p1.thr⟩ ∧ A p1.world u := by
  cases hs with
  | accept => exact ⟨_, v, .same _ (by intro w h; cases h), .accept, ha⟩
  | start t body spare h1 h2 h3 => exact ⟨_, v, .same _ (by intro w h; cases h), .start (p := ⟨v, p.thr⟩) t body spare h1 h2 h3, ha⟩
  | @call i c x k h1 h2 =>
    obtain ⟨e1, e2⟩ := hk x p.world v ha (hb _ _ rfl)
    refine ⟨_, (host.exec x v).1, .same _ (by intro w h; cases h), ?_, e2⟩
    have := TStep.call (host := host) (user := user) (rootPath := rootPath) (p := ⟨v, p.thr⟩) h1 h2
    rw [e1] at this
    exact this
  | reply written h1 h2 => exact ⟨_, v, .same _ (by intro w h; cases h), .reply (p := ⟨v, p.thr⟩) written h1 h2, ha⟩
  | hangup h1 h2 => exact ⟨_, v, .same _ (by intro w h; cases h), .hangup (p := ⟨v, p.thr⟩) h1 h2, ha⟩
  | other w =>
    obtain ⟨u, hu⟩ := ho w rfl
    exact ⟨_, u, .other w u hu, .other u, hu⟩

/-- the requests have names that never lead above the root -/
def ModestPacket (o : Obj H) (t : MType) (body spare : Bytes) : Prop := ∀ m, PacketAsks t ⟨[], body, spare⟩ m → Modest o m

theorem Pairs.snoc {α β : Type} {R : α → β → Prop} {as : List α} {bs : List β} {a : α} {b : β} (h : Pairs R as bs)
    (hab : R a b) : Pairs R (as ++ [a]) (bs ++ [b]) := by
  induction h with
  | nil => exact .cons hab .nil
  | cons h _ ih => exact .cons h ih

/-- **C121, partial** Whatever the connections do, however many there are and however their requests overlap: in a file
system with another outside the same happens, with the same answers of the operating system, the same replies and the
same inside at the end.  For hosts that keep the inside apart, and names that never lead above the root. -/
theorem C121_unseen_partial {A : ω → ω → Prop} (hk : KeepsApart host (rootOf rootPath) A) {w0 v0 : ω} (ha : A w0 v0)
    {ls : List (Label ω H)} {p : TProc ω H} (hr : TRunIf host user rootPath ModestPacket w0 ls p)
    (ho : ∀ w, Label.other w ∈ ls → ∃ u, A w u) :
    ∃ ls' u, Pairs (LabelAlike A) ls ls' ∧ TRunIf host user rootPath ModestPacket v0 ls' ⟨u, p.thr⟩ ∧ A p.world u := by
  have hb : ∀ {ls p}, TRunIf host user rootPath ModestPacket w0 ls p → ∀ i e, Label.call i e ∈ ls →
      ∀ x ∈ e.1.paths, Below (rootOf rootPath) x := fun hr i e he x hx => C39_depth_calls_partial host user hr he hx
  induction hr with
  | init => exact ⟨[], v0, .nil, .init, ha⟩
  | @step ls p l p' hr hs hP ih =>
    obtain ⟨ls', u, h1, h2, h3⟩ := ih fun w hw => ho w (List.mem_append_left _ hw)
    obtain ⟨l', u', h4, h5, h6⟩ := unseen_step hk h3 hs
      (fun i e he => hb (hr.step hs hP) i e (he ▸ List.mem_append_right _ (List.mem_singleton.2 rfl)))
      (fun w hw => ho w (hw ▸ List.mem_append_right _ (List.mem_singleton.2 rfl)))
    refine ⟨ls' ++ [l'], u', h1.snoc h4, h2.step h5 ?_, h6⟩
    intro i t body spare c hl hc
    subst hl
    cases h4
    exact hP i t body spare c rfl hc

/-- **C121, partial** Nothing outside is changed: if calls with paths below the root and calls for open files leave the
outside as it is, in worlds with an invariant `I` that they keep, then it is at the end what it was at the beginning,
but for what other processes do. -/
theorem C121_unchanged_partial {β : Type} (outside : ω → β) (I : ω → Prop)
    (hk : ∀ (c : HCall H) (w : ω), I w → (∀ x ∈ c.paths, Below (rootOf rootPath) x) →
      I (host.exec c w).1 ∧ outside (host.exec c w).1 = outside w)
    {w0 : ω} (hi : I w0) {ls : List (Label ω H)} {p : TProc ω H} (hr : TRunIf host user rootPath ModestPacket w0 ls p)
    (ho : ∀ w, Label.other w ∈ ls → I w ∧ outside w = outside w0) : outside p.world = outside w0 := by
  suffices h : I p.world ∧ outside p.world = outside w0 from h.2
  induction hr with
  | init => exact ⟨hi, rfl⟩
  | @step ls p l p' hr hs hP ih =>
    obtain ⟨h1, h2⟩ := ih fun w hw => ho w (List.mem_append_left _ hw)
    have hb := fun i e he x hx => C39_depth_calls_partial host user (hr.step hs hP) (i := i) (e := e) he (x := x) hx
    cases hs with
    | accept => exact ⟨h1, h2⟩
    | start => exact ⟨h1, h2⟩
    | @call i c x k _ _ =>
      obtain ⟨h3, h4⟩ := hk x p.world h1 (hb _ _ (List.mem_append_right _ (List.mem_singleton.2 rfl)))
      exact ⟨h3, h4.trans h2⟩
    | reply => exact ⟨h1, h2⟩
    | hangup => exact ⟨h1, h2⟩
    | other w => exact ho w (List.mem_append_right _ (List.mem_singleton.2 rfl))

end

/-! ### a host without symbolic links -/

namespace Mem

/-- a path at or below "/x" -/
def Under (p : GoString) : Prop := p = [47, 120] ∨ [47, 120, 47] <+: p

/-- an inode that has a name below "/x" or is open, or that is not used yet -/
def Vis (w : World) (i : Nat) : Prop :=
  w.next ≤ i ∨ (∃ x ∈ w.names, x.2 = i ∧ Under x.1) ∨ ∃ o ∈ w.opened, o.ino = i

/-- two worlds that differ in nothing but files outside of "/x" -/
structure SameIn (w v : World) : Prop where
  names : v.names = w.names
  next : v.next = w.next
  opened : v.opened = w.opened
  nodes : ∀ i, Vis w i → v.nodes i = w.nodes i

/-- what is outside stays outside and as it is -/
def KeepsOut (w w1 : World) : Prop := ∀ i, ¬ Vis w i → ¬ Vis w1 i ∧ w1.nodes i = w.nodes i

theorem KeepsOut.refl (w : World) : KeepsOut w w := fun _ h => ⟨h, rfl⟩

theorem KeepsOut.trans {w w1 w2 : World} (h : KeepsOut w w1) (h' : KeepsOut w1 w2) : KeepsOut w w2 := fun i hi =>
  ⟨(h' i (h i hi).1).1, (h' i (h i hi).1).2.trans (h i hi).2⟩

theorem below_under {p : GoString} (h : Below (rootOf [47, 120]) p) : Under p := by
  obtain ⟨names, _, hp⟩ := h
  have hr : rootOf [47, 120] = .abs [[120]] := by
    have : elems [47, 120] = [[120]] := by decide +kernel
    simp [rootOf, this, place, follow]
  rw [hr] at hp
  subst hp
  cases names with
  | nil => exact .inl rfl
  | cons n ns =>
    refine .inr ⟨n ++ ns.flatMap (47 :: ·), ?_⟩
    simp [Root.under, absPath]

theorem find_mem {p : GoString} {w : World} {i : Nat} (h : find p w = some i) : (p, i) ∈ w.names := by
  unfold find at h
  generalize w.names = l at h
  induction l with
  | nil => cases h
  | cons x l ih =>
    obtain ⟨q, j⟩ := x
    rw [List.lookup_cons] at h
    split at h
    · rename_i hq
      cases h
      rw [show p = q from eq_of_beq hq]
      exact List.mem_cons_self
    · exact List.mem_cons_of_mem _ (ih h)

theorem find_vis {p : GoString} {w : World} {i : Nat} (hp : Under p) (h : find p w = some i) : Vis w i :=
  .inr (.inl ⟨_, find_mem h, rfl, hp⟩)

theorem find_same {w v : World} (h : SameIn w v) (p : GoString) : find p v = find p w := by
  unfold find
  rw [h.names]

theorem info_same {w v : World} (h : SameIn w v) (p : GoString) {i : Nat} (hi : Vis w i) : info p i v = info p i w := by
  unfold info
  rw [h.nodes i hi]

theorem stat_same {w v : World} (h : SameIn w v) {p : GoString} (hp : Under p) : stat p v = stat p w := by
  unfold stat
  rw [find_same h]
  cases hf : find p w with
  | none => rfl
  | some i => simp only [info_same h p (find_vis hp hf)]

/-- what lies in a directory below "/x" lies below it too -/
theorem parent_under {q : GoString} (h : Under (parent q)) : Under q := by
  have hs : (q.reverse.dropWhile (· ≠ 47)).reverse <+: q := by
    have := List.dropWhile_suffix (l := q.reverse) (· ≠ 47)
    have h2 := List.reverse_prefix.2 this
    rwa [List.reverse_reverse] at h2
  unfold parent at h
  generalize hd : q.reverse.dropWhile (· ≠ 47) = d at h hs
  have hh : ∀ y ys, d = y :: ys → y = 47 := by
    intro y ys e
    have := List.head?_dropWhile_not (p := fun x : UInt8 => decide (x ≠ 47)) (l := q.reverse)
    rw [hd, e] at this
    simpa using this
  cases d with
  | nil =>
    rcases h with h | h
    · cases h
    · have := h.length_le
      simp at this
  | cons y ys =>
    have hy := hh y ys rfl
    subst hy
    simp only [List.drop_succ_cons, List.drop_zero] at h
    cases hr : ys.reverse with
    | nil =>
      rw [hr] at h
      rcases h with h | h
      · cases h
      · have := h.length_le
        simp at this
    | cons z zs =>
      rw [hr] at h
      simp only at h
      rw [List.reverse_cons, hr] at hs
      rcases h with h | h
      · rw [h] at hs
        exact .inr hs
      · exact .inr (h.trans ((List.prefix_append _ _).trans hs))

theorem list_same {w v : World} (h : SameIn w v) {p : GoString} (hp : Under p) : list p v = list p w := by
  unfold list
  rw [h.names]
  refine List.map_congr_left fun x hx => ?_
  rw [List.mem_filter] at hx
  have hx2 : parent x.1 = p := by simpa using (of_decide_eq_true hx.2).2
  exact info_same h x.1 (.inr (.inl ⟨x, hx.1, rfl, parent_under (by rw [hx2]; exact hp)⟩))

/-- worlds that agree inside, after the same change of one inode that is visible -/
theorem setNode_same {w v : World} (h : SameIn w v) {i : Nat} (f : Node → Node) (hi : Vis w i) :
    SameIn (setNode i f w) (setNode i f v) where
  names := h.names
  next := h.next
  opened := h.opened
  nodes j hj := by
    simp only [setNode]
    split
    · rw [h.nodes i hi]
    · exact h.nodes j hj

theorem setNode_out {w : World} {i : Nat} (f : Node → Node) (hi : Vis w i) : KeepsOut w (setNode i f w) := fun j hj => by
  refine ⟨hj, ?_⟩
  simp only [setNode]
  rw [if_neg (fun e : j = i => hj (by rw [e]; exact hi))]

theorem addHandle_vis {p : GoString} {w : World} {i : Nat} {j : Nat} (hi : Vis w i) (h : Vis (addHandle p i w).1 j) : Vis w j := by
  rcases h with h | h | ⟨o, ho, h⟩
  · exact .inl h
  · exact .inr (.inl h)
  · simp only [addHandle, List.mem_append, List.mem_singleton] at ho
    rcases ho with ho | rfl
    · exact .inr (.inr ⟨o, ho, h⟩)
    · exact h ▸ hi

theorem addHandle_same {w v : World} (h : SameIn w v) {p : GoString} (hp : Under p) {i : Nat} (hi : Vis w i) :
    (addHandle p i v).2 = (addHandle p i w).2 ∧ SameIn (addHandle p i w).1 (addHandle p i v).1 := by
  refine ⟨by simp only [addHandle, h.opened], ?_, ?_, ?_, ?_⟩
  · exact h.names
  · exact h.next
  · simp only [addHandle, h.opened, list_same h hp]
  · exact fun j hj => h.nodes j (addHandle_vis hi hj)

theorem addHandle_out {p : GoString} {w : World} {i : Nat} (hi : Vis w i) : KeepsOut w (addHandle p i w).1 := fun _ hj =>
  ⟨fun h => hj (addHandle_vis hi h), rfl⟩

theorem addNode_vis {p : GoString} {nd : Node} {w : World} {j : Nat} (h : Vis (addNode p nd w) j) : Vis w j := by
  rcases h with h | ⟨x, hx, h⟩ | h
  · exact .inl (Nat.le_of_succ_le h)
  · simp only [addNode, List.mem_append, List.mem_singleton] at hx
    rcases hx with hx | rfl
    · exact .inr (.inl ⟨x, hx, h⟩)
    · exact .inl (Nat.le_of_eq h.1)
  · exact .inr (.inr h)

theorem addNode_same {w v : World} (h : SameIn w v) (p : GoString) (nd : Node) : SameIn (addNode p nd w) (addNode p nd v) where
  names := by simp only [addNode, h.names, h.next]
  next := by simp only [addNode, h.next]
  opened := h.opened
  nodes j hj := by
    simp only [addNode, h.next]
    split
    · rfl
    · exact h.nodes j (addNode_vis hj)

theorem addNode_out (w : World) (p : GoString) (nd : Node) : KeepsOut w (addNode p nd w) := fun j hj => by
  refine ⟨fun h => hj (addNode_vis h), ?_⟩
  simp only [addNode]
  rw [if_neg (fun e => hj (.inl (Nat.le_of_eq e.symm)))]

theorem addNode_new {w : World} {p : GoString} (hp : Under p) (nd : Node) : Vis (addNode p nd w) w.next :=
  .inr (.inl ⟨(p, w.next), by simp [addNode], rfl, hp⟩)

/-- a change of one visible inode found by name -/
theorem onNode_ok {p : GoString} (hp : Under p) (f : Node → Node) (w : World) : KeepsOut w (onNode p f w).1 ∧
    ∀ v, SameIn w v → (onNode p f v).2 = (onNode p f w).2 ∧ SameIn (onNode p f w).1 (onNode p f v).1 := by
  unfold onNode
  cases hf : find p w with
  | none =>
    refine ⟨.refl w, fun v h => ?_⟩
    rw [find_same h, hf]
    exact ⟨rfl, h⟩
  | some i =>
    refine ⟨setNode_out f (find_vis hp hf), fun v h => ?_⟩
    rw [find_same h, hf]
    exact ⟨rfl, setNode_same h f (find_vis hp hf)⟩

/-- an operation on an open file that changes at most its inode and where it stands -/
theorem onHandle_ok {α : Type} (h : Nat) (bad : α) (f : World → Opened → World × α) (w : World)
    (hf : ∀ o ∈ w.opened, KeepsOut w (f w o).1 ∧ ∀ v, SameIn w v → (f v o).2 = (f w o).2 ∧ SameIn (f w o).1 (f v o).1)
    (hget : ∀ o, w.opened[h]? = some o → o ∈ w.opened) :
    KeepsOut w (onHandle h w bad (f w)).1 ∧
    ∀ v, SameIn w v → (onHandle h v bad (f v)).2 = (onHandle h w bad (f w)).2 ∧
      SameIn (onHandle h w bad (f w)).1 (onHandle h v bad (f v)).1 := by
  unfold onHandle
  cases ho : w.opened[h]? with
  | none =>
    refine ⟨.refl w, fun v hs => ?_⟩
    rw [hs.opened, ho]
    exact ⟨rfl, hs⟩
  | some o =>
    have hok := hf o (hget o ho)
    by_cases hop : o.isOpen = true
    · simp only [hop, if_true]
      refine ⟨hok.1, fun v hs => ?_⟩
      rw [hs.opened, ho]
      simp only [hop, if_true]
      exact hok.2 v hs
    · simp only [hop]
      refine ⟨.refl w, fun v hs => ?_⟩
      rw [hs.opened, ho]
      simp only [hop]
      exact ⟨rfl, hs⟩

theorem setOpened_vis {h : Nat} {o : Opened} {w : World} {j : Nat} (hi : Vis w o.ino) (hj : Vis (setOpened h o w) j) : Vis w j := by
  rcases hj with hj | hj | ⟨o', ho, hj⟩
  · exact .inl hj
  · exact .inr (.inl hj)
  · rcases List.mem_or_eq_of_mem_set ho with ho | rfl
    · exact .inr (.inr ⟨o', ho, hj⟩)
    · exact hj ▸ hi

theorem setOpened_ok {h : Nat} {o : Opened} {w : World} (hi : Vis w o.ino) : KeepsOut w (setOpened h o w) ∧
    ∀ v, SameIn w v → SameIn (setOpened h o w) (setOpened h o v) := by
  refine ⟨fun j hj => ⟨fun hv => hj (setOpened_vis hi hv), rfl⟩, fun v hs => ⟨hs.names, hs.next, ?_, ?_⟩⟩
  · simp only [setOpened, hs.opened]
  · exact fun j hj => hs.nodes j (setOpened_vis hi hj)

theorem openFile_ok {p : GoString} (hp : Under p) (flags : Nat) (perm : UInt32) (w : World) :
    KeepsOut w (openFile p flags perm w).1 ∧
    ∀ v, SameIn w v → (openFile p flags perm v).2 = (openFile p flags perm w).2 ∧
      SameIn (openFile p flags perm w).1 (openFile p flags perm v).1 := by
  unfold openFile
  cases hf : find p w with
  | some i =>
    have hi := find_vis hp hf
    dsimp only
    by_cases hd : (w.nodes i).dir = true ∧ flags % 4 ≠ 0
    · rw [if_pos hd]
      refine ⟨.refl w, fun v h => ?_⟩
      rw [find_same h, hf]
      dsimp only
      rw [h.nodes i hi, if_pos hd]
      exact ⟨rfl, h⟩
    · rw [if_neg hd]
      by_cases ht : flags / 512 % 2 = 1
      · simp only [ht, if_true]
        have hi2 : Vis (setNode i (fun n => { n with data := [] }) w) i := hi
        refine ⟨(setNode_out _ hi).trans (addHandle_out hi2), fun v h => ?_⟩
        rw [find_same h, hf]
        dsimp only
        rw [h.nodes i hi, if_neg hd]
        exact addHandle_same (setNode_same h _ hi) hp hi2
      · simp only [ht, if_false]
        refine ⟨addHandle_out hi, fun v h => ?_⟩
        rw [find_same h, hf]
        dsimp only
        rw [h.nodes i hi, if_neg hd]
        exact addHandle_same h hp hi
  | none =>
    dsimp only
    by_cases hc : flags / 64 % 2 = 1
    · simp only [hc, if_true]
      refine ⟨(addNode_out w p _).trans (addHandle_out (addNode_new hp _)), fun v h => ?_⟩
      rw [find_same h, hf]
      dsimp only
      rw [h.next]
      exact addHandle_same (addNode_same h p _) hp (addNode_new hp _)
    · simp only [hc, if_false]
      refine ⟨.refl w, fun v h => ?_⟩
      rw [find_same h, hf]
      exact ⟨rfl, h⟩

theorem mkdir_ok (p : GoString) (perm : UInt32) (w : World) : KeepsOut w (mkdir p perm w).1 ∧
    ∀ v, SameIn w v → (mkdir p perm v).2 = (mkdir p perm w).2 ∧ SameIn (mkdir p perm w).1 (mkdir p perm v).1 := by
  unfold mkdir
  cases hf : find p w with
  | some i =>
    refine ⟨.refl w, fun v h => ?_⟩
    rw [find_same h, hf]
    exact ⟨rfl, h⟩
  | none =>
    refine ⟨addNode_out w p _, fun v h => ?_⟩
    rw [find_same h, hf]
    exact ⟨rfl, addNode_same h p _⟩

/-- fewer names, and another name for a visible inode -/
theorem names_ok {w : World} {l : List (GoString × Nat)} (hl : ∀ x ∈ l, x ∈ w.names ∨ Vis w x.2) :
    KeepsOut w { w with names := l } ∧ ∀ v, SameIn w v → SameIn { w with names := l } { v with names := l } := by
  have hv : ∀ j, Vis { w with names := l } j → Vis w j := by
    intro j hj
    rcases hj with hj | ⟨x, hx, h1, h2⟩ | hj
    · exact .inl hj
    · rcases hl x hx with h | h
      · exact .inr (.inl ⟨x, h, h1, h2⟩)
      · exact h1 ▸ h
    · exact .inr (.inr hj)
  exact ⟨fun j hj => ⟨fun h => hj (hv j h), rfl⟩, fun v h => ⟨rfl, h.next, h.opened, fun j hj => h.nodes j (hv j hj)⟩⟩

theorem rename_ok {p : GoString} (hp : Under p) (q : GoString) (w : World) : KeepsOut w (rename p q w).1 ∧
    ∀ v, SameIn w v → (rename p q v).2 = (rename p q w).2 ∧ SameIn (rename p q w).1 (rename p q v).1 := by
  unfold rename
  cases hf : find p w with
  | none =>
    refine ⟨.refl w, fun v h => ?_⟩
    rw [find_same h, hf]
    exact ⟨rfl, h⟩
  | some i =>
    have hn := names_ok (w := w) (l := (w.names.filter fun x => x.1 ≠ p ∧ x.1 ≠ q) ++ [(q, i)]) (by
      intro x hx
      rcases List.mem_append.1 hx with hx | hx
      · exact .inl (List.mem_filter.1 hx).1
      · rw [List.mem_singleton.1 hx]
        exact .inr (find_vis hp hf))
    refine ⟨hn.1, fun v h => ?_⟩
    rw [find_same h, hf]
    dsimp only
    rw [h.names]
    exact ⟨rfl, hn.2 v h⟩

theorem remove_ok (p : GoString) (w : World) : KeepsOut w (remove p w).1 ∧
    ∀ v, SameIn w v → (remove p v).2 = (remove p w).2 ∧ SameIn (remove p w).1 (remove p v).1 := by
  unfold remove
  cases hf : find p w with
  | none =>
    refine ⟨.refl w, fun v h => ?_⟩
    rw [find_same h, hf]
    exact ⟨rfl, h⟩
  | some i =>
    have hn := names_ok (w := w) (l := w.names.filter fun x => x.1 ≠ p) fun x hx => .inl (List.mem_filter.1 hx).1
    refine ⟨hn.1, fun v h => ?_⟩
    rw [find_same h, hf]
    dsimp only
    rw [h.names]
    exact ⟨rfl, hn.2 v h⟩

/-- every call of the example host with paths below "/x", or for an open file, leaves the outside as it is, does not make
it visible, and does not depend on it -/
theorem exec_ok (c : HCall Nat) (hc : ∀ x ∈ c.paths, Under x) (w : World) : KeepsOut w (Mem.host.exec c w).1 ∧
    ∀ v, SameIn w v → (Mem.host.exec c v).2 = (Mem.host.exec c w).2 ∧ SameIn (Mem.host.exec c w).1 (Mem.host.exec c v).1 := by
  have hget : ∀ h o, w.opened[h]? = some o → o ∈ w.opened := fun h o => List.mem_of_getElem?
  have hino : ∀ o ∈ w.opened, Vis w o.ino := fun o ho => .inr (.inr ⟨o, ho, rfl⟩)
  cases c with
  | lstat p => exact ⟨.refl w, fun v h => ⟨stat_same h (hc p (by simp [HCall.paths])), h⟩⟩
  | stat p => exact ⟨.refl w, fun v h => ⟨stat_same h (hc p (by simp [HCall.paths])), h⟩⟩
  | openFile p f m => exact openFile_ok (hc p (by simp [HCall.paths])) f m w
  | mkdir p m => exact mkdir_ok p m w
  | chmod p m => exact onNode_ok (hc p (by simp [HCall.paths])) _ w
  | rename p q => exact rename_ok (hc p (by simp [HCall.paths])) q w
  | truncate p n =>
    simp only [Host.exec, Mem.host]
    split
    · exact ⟨.refl w, fun v h => ⟨rfl, h⟩⟩
    · exact onNode_ok (hc p (by simp [HCall.paths])) _ w
  | chtimes p a m => exact onNode_ok (hc p (by simp [HCall.paths])) _ w
  | remove p => exact remove_ok p w
  | close h =>
    exact onHandle_ok h _ (fun w o => (setOpened h { o with isOpen := false } w, none)) w
      (fun o ho => ⟨(setOpened_ok (h := h) (o := { o with isOpen := false }) (hino o ho)).1, fun v hs => ⟨rfl, (setOpened_ok (h := h) (o := { o with isOpen := false }) (hino o ho)).2 v hs⟩⟩) (hget h)
  | sync h => exact onHandle_ok h _ (fun w _ => (w, none)) w (fun o ho => ⟨.refl w, fun v hs => ⟨rfl, hs⟩⟩) (hget h)
  | seek0 h =>
    exact onHandle_ok h _ (fun w o => (setOpened h { o with rest := o.listing } w, none)) w
      (fun o ho => ⟨(setOpened_ok (h := h) (o := { o with rest := o.listing }) (hino o ho)).1, fun v hs => ⟨rfl, (setOpened_ok (h := h) (o := { o with rest := o.listing }) (hino o ho)).2 v hs⟩⟩) (hget h)
  | readdir1 h =>
    refine onHandle_ok h _ (fun w o => match o.rest with
      | [] => (w, DirRes.eof)
      | fi :: r => (setOpened h { o with rest := r } w, DirRes.entry fi)) w (fun o ho => ?_) (hget h)
    cases o.rest with
    | nil => exact ⟨.refl w, fun v hs => ⟨rfl, hs⟩⟩
    | cons fi r =>
      have := setOpened_ok (h := h) (o := { o with rest := r }) (hino o ho)
      exact ⟨this.1, fun v hs => ⟨rfl, this.2 v hs⟩⟩
  | readAt h n off =>
    refine onHandle_ok h _ (fun w o => if off.toInt < 0 then (w, [], ReadErr.fail (lit "negative offset"))
      else
        let d := slice (w.nodes o.ino).data off.toInt.toNat n
        (w, d, if d.length < n then ReadErr.eof else ReadErr.none)) w (fun o ho => ?_) (hget h)
    by_cases hneg : off.toInt < 0
    · simp only [hneg, if_true]
      exact ⟨.refl w, fun v hs => ⟨trivial, hs⟩⟩
    · simp only [hneg, if_false]
      exact ⟨.refl w, fun v hs => ⟨by rw [hs.nodes _ (hino o ho)], hs⟩⟩
  | writeAt h b off =>
    refine onHandle_ok h _ (fun w o => if off.toInt < 0 then (w, 0, some (lit "negative offset"))
      else (setNode o.ino (fun nd => { nd with data := overlay nd.data off.toInt.toNat b }) w, b.length, none)) w
      (fun o ho => ?_) (hget h)
    by_cases hneg : off.toInt < 0
    · simp only [hneg, if_true]
      exact ⟨.refl w, fun v hs => ⟨trivial, hs⟩⟩
    · simp only [hneg, if_false]
      exact ⟨setNode_out _ (hino o ho), fun v hs => ⟨trivial, setNode_same hs _ (hino o ho)⟩⟩

/-- the example host keeps "/x" apart -/
theorem mem_apart : KeepsApart Mem.host (rootOf [47, 120]) SameIn := fun c w v h hc =>
  (exec_ok c (fun x hx => below_under (hc x hx)) w).2 v h

/-- C121: the hypotheses about the outside are met by the contents of "/etc" -/
example : (∀ (c : HCall Nat) (w : World), ¬ Vis w 4 → (∀ x ∈ c.paths, Below (rootOf [47, 120]) x) →
      ¬ Vis (Mem.host.exec c w).1 4 ∧ (Mem.host.exec c w).1.nodes 4 = w.nodes 4) ∧ ¬ Vis world0 4 := by
  refine ⟨fun c w hw hc => (exec_ok c (fun x hx => below_under (hc x hx)) w).1 4 hw, ?_⟩
  rintro (h | ⟨x, hx, h1, h2⟩ | ⟨o, ho, _⟩)
  · exact absurd h (by decide)
  · simp only [world0, List.mem_cons, List.not_mem_nil, or_false] at hx
    rcases hx with rfl | rfl | rfl | rfl | rfl <;> first
      | exact absurd h1 (by decide)
      | (rcases h2 with h2 | h2
         · exact absurd h2 (by decide)
         · exact absurd h2 (by decide))
  · cases ho

/-- C121: two worlds that differ in the contents of "/etc" -/
example : SameIn world0 (setNode 4 (fun n => { n with data := [1, 2, 3] }) world0) := by
  refine ⟨rfl, rfl, rfl, fun i hi => ?_⟩
  simp only [setNode]
  rw [if_neg]
  rintro rfl
  rcases hi with h | ⟨x, hx, h1, h2⟩ | ⟨o, ho, _⟩
  · exact absurd h (by decide)
  · simp only [world0, List.mem_cons, List.not_mem_nil, or_false] at hx
    rcases hx with rfl | rfl | rfl | rfl | rfl <;> first
      | exact absurd h1 (by decide)
      | (rcases h2 with h2 | h2
         · exact absurd h2 (by decide)
         · exact absurd h2 (by decide))
  · cases ho

end Mem

end Ninep.Ufs
