import Verif.Props.Links
/-
What an administrator can do about symbolic links (C121): if every link below the root is absolute and leads straight
down from the root, then the inside stays apart whatever clients do, also if they rename links.
-/

namespace Ninep.Ufs.Links
open Spec

/-- A file system with symbolic links, and the open files: the place that the path led to when the file was opened, and
what is still to be listed. -/
structure World where
  tree : Tree
  opened : List (GoString × List FileInfo)

/-- what a directory has in it -/
def list (q : GoString) (w : Tree) : List FileInfo :=
  (w.filter fun x => x.1 ≠ [47] ∧ Mem.parent x.1 = q).map fun x => info x.1 x.2

def drop (w : Tree) (p : GoString) : Tree := w.filter fun x => x.1 ≠ p

def loops : GoString := lit "too many levels of symbolic links"

/-- an operation at the place that a path leads to -/
def at_ (last : Bool) (p : GoString) (w : World) (f : GoString → Option Ent → Tree × Option GoString) : World × Option GoString :=
  match find w.tree last p with
  | none => (w, some loops)
  | some q => ({ w with tree := (f q (w.tree.lookup q)).1 }, (f q (w.tree.lookup q)).2)

/-- A host that follows symbolic links, in every element of a path, and the last one but for lstat, mkdir, rename and
remove.  Files can be looked at, opened, created, truncated, read, written, listed, renamed and removed. -/
def hostL : Host World Nat where
  lstat p w := (w, stat false p w.tree)
  stat p w := (w, stat true p w.tree)
  openFile p flags _ w :=
    match find w.tree true p with
    | none => (w, .error loops)
    | some q =>
      match w.tree.lookup q with
      | none =>
        if flags / 64 % 2 = 1 then (⟨put w.tree q (.file []), w.opened ++ [(q, [])]⟩, .ok w.opened.length)
        else (w, .error Mem.noent)
      | some (.file _) =>
        (⟨if flags / 512 % 2 = 1 then put w.tree q (.file []) else w.tree, w.opened ++ [(q, [])]⟩, .ok w.opened.length)
      | some _ => (⟨w.tree, w.opened ++ [(q, list q w.tree)]⟩, .ok w.opened.length)
  mkdir p _ w := at_ false p w fun q e =>
    match e with
    | some _ => (w.tree, some (lit "file exists"))
    | none => (put w.tree q .dir, none)
  chmod p _ w := at_ true p w fun _ e => (w.tree, if e.isSome then none else some Mem.noent)
  rename p q w :=
    match find w.tree false p, find w.tree false q with
    | some p, some q =>
      match w.tree.lookup p with
      | some e => (⟨put (drop w.tree p) q e, w.opened⟩, none)
      | none => (w, some Mem.noent)
    | _, _ => (w, some loops)
  truncate p n w := at_ true p w fun q e =>
    match e with
    | some (.file d) => (put w.tree q (.file (Mem.resize n.toInt.toNat d)), none)
    | _ => (w.tree, some Mem.noent)
  chtimes p _ _ w := at_ true p w fun _ e => (w.tree, if e.isSome then none else some Mem.noent)
  remove p w := at_ false p w fun q e => (drop w.tree q, if e.isSome then none else some Mem.noent)
  close _ w := (w, none)
  sync _ w := (w, none)
  seek0 h w :=
    match w.opened[h]? with
    | some o => (⟨w.tree, w.opened.set h (o.1, list o.1 w.tree)⟩, none)
    | none => (w, some (lit "file already closed"))
  readdir1 h w :=
    match w.opened[h]? with
    | some (q, fi :: r) => (⟨w.tree, w.opened.set h (q, r)⟩, .entry fi)
    | _ => (w, .eof)
  readAt h n off w :=
    match w.opened[h]? with
    | some o =>
      match w.tree.lookup o.1 with
      | some (.file d) => (w, slice d off.toInt.toNat n, if (slice d off.toInt.toNat n).length < n then .eof else .none)
      | _ => (w, [], .fail (lit "is a directory"))
    | none => (w, [], .fail (lit "file already closed"))
  writeAt h b off w :=
    match w.opened[h]? with
    | some o =>
      match w.tree.lookup o.1 with
      | some (.file d) => (⟨put w.tree o.1 (.file (overlay d off.toInt.toNat b)), w.opened⟩, b.length, none)
      | _ => (w, 0, some (lit "is a directory"))
    | none => (w, 0, some (lit "file already closed"))

section
-- the elements of the root
variable (root : List Bytes)

/-- the path is that of the root or of something below it -/
def inX (p : GoString) : Bool := root.isPrefixOf (elems p)

/-- a target that is absolute and leads straight down from the root -/
def Stays (t : GoString) : Prop :=
  t.head? = some 47 ∧ ∃ names, elems t = root ++ names ∧ ∀ n ∈ names, n ≠ [46, 46]

/-- the part of a file system at and below the root, and the rest -/
def inside (w : Tree) : Tree := w.filter fun x => inX root x.1
def outside (w : World) : Tree := w.tree.filter fun x => !inX root x.1

/-- no link is on the way to the root -/
def Above (w : Tree) : Prop := ∀ x ∈ w, inX root x.1 = false → ∀ t, x.2 = .link t → ¬ elems x.1 <+: root

/-- the open files are inside, all links inside stay inside, and the root is not reached through a link -/
structure Safe (w : World) : Prop where
  opened : ∀ o ∈ w.opened, inX root o.1 = true
  links : ∀ x ∈ w.tree, inX root x.1 = true → ∀ t, x.2 = .link t → Stays root t
  above : Above root w.tree

/-- nothing but the outside differs -/
structure SameX (w v : World) : Prop where
  safe : Safe root w
  above : Above root v.tree
  inside : inside root v.tree = inside root w.tree
  opened : v.opened = w.opened

end

section
variable {root : List Bytes}

theorem lookup_filter {f : GoString → Bool} {p : GoString} (hp : f p = true) (w : Tree) :
    (w.filter fun x => f x.1).lookup p = w.lookup p := by
  induction w with
  | nil => rfl
  | cons x w ih =>
    obtain ⟨q, e⟩ := x
    rw [List.filter_cons]
    by_cases hq : p = q
    · subst hq
      simp [hp]
    · have hb : (p == q) = false := by simpa using hq
      by_cases hf : f q = true
      · simp only [hf, if_true, List.lookup_cons, hb, ih]
      · simp only [hf, List.lookup_cons, hb]
        exact ih

theorem lookup_mem {w : Tree} {p : GoString} {e : Ent} (h : w.lookup p = some e) : (p, e) ∈ w := by
  induction w with
  | nil => cases h
  | cons x w ih =>
    obtain ⟨q, j⟩ := x
    rw [List.lookup_cons] at h
    split at h
    · rename_i hq
      cases h
      rw [show p = q from eq_of_beq hq]
      exact List.mem_cons_self
    · exact List.mem_cons_of_mem _ (ih h)

theorem inX_abs {c : List Bytes} (hc : ∀ e ∈ root ++ c, Elem e) : inX root (absPath (root ++ c)) = true := by
  unfold inX
  rw [elems_absPath' hc, List.isPrefixOf_iff_prefix]
  exact List.prefix_append _ _

/-- where resolving a path stands: at or below the root with no step up to come, or above it on the way to it -/
def Safely (root cur es : List Bytes) : Prop :=
  (∀ e ∈ cur ++ es, Elem e) ∧
  (((∃ c, cur = root ++ c) ∧ ∀ e ∈ es, e ≠ [46, 46]) ∨ (∃ e m r, root = cur ++ e :: m ∧ es = e :: (m ++ r) ∧ ∀ e ∈ r, e ≠ [46, 46]))

theorem safely_start {r : List Bytes} (he : ∀ e ∈ root ++ r, Elem e) (hr : ∀ e ∈ r, e ≠ [46, 46]) : Safely root [] (root ++ r) := by
  refine ⟨he, ?_⟩
  cases root with
  | nil => exact .inl ⟨⟨[], rfl⟩, hr⟩
  | cons e m => exact .inr ⟨e, m, r, rfl, rfl, hr⟩

theorem resolve_same (hroot : ∀ e ∈ root, Proper e) {w v : Tree} (hl : ∀ p, inX root p = true → v.lookup p = w.lookup p)
    (hg : ∀ p t, inX root p = true → w.lookup p = some (.link t) → Stays root t)
    (hw : Above root w) (hv : Above root v) (last : Bool) :
    ∀ n cur es, Safely root cur es → resolve v last n cur es = resolve w last n cur es ∧
      ∀ q, resolve w last n cur es = some q → (∃ c, q = root ++ c) ∧ ∀ e ∈ q, Elem e := by
  intro n
  induction n with
  | zero => exact fun cur es _ => ⟨rfl, fun q hq => by cases hq⟩
  | succ n ih =>
    intro cur es hs
    obtain ⟨hel, hs⟩ := hs
    cases es with
    | nil =>
      rcases hs with ⟨hc, _⟩ | ⟨e, m, r, _, h, _⟩
      · refine ⟨rfl, fun q hq => ?_⟩
        cases hq
        exact ⟨hc, by simpa using hel⟩
      · cases h
    | cons e es =>
      have hel' : ∀ x ∈ (cur ++ [e]) ++ es, Elem x := by simpa [List.append_assoc] using hel
      have hel1 : ∀ x ∈ cur ++ [e], Elem x := fun x hx => hel' x (List.mem_append_left _ hx)
      have he : e ≠ [46, 46] := by
        rcases hs with ⟨_, h⟩ | ⟨e', m, r, h1, h2, _⟩
        · exact h e List.mem_cons_self
        · cases h2
          exact (hroot e (by rw [h1]; simp)).2.2.2
      by_cases hd : e = [46]
      · have hc : (∃ c, cur = root ++ c) ∧ ∀ e ∈ es, e ≠ [46, 46] := by
          rcases hs with ⟨h, h'⟩ | ⟨e', m, r, h1, h2, _⟩
          · exact ⟨h, fun x hx => h' x (List.mem_cons_of_mem _ hx)⟩
          · cases h2
            exact absurd hd (hroot e (by rw [h1]; simp)).2.2.1
        simp only [resolve, hd, if_true]
        exact ih cur es ⟨fun x hx => hel x (by
          rcases List.mem_append.1 hx with hx | hx
          · exact List.mem_append_left _ hx
          · exact List.mem_append_right _ (List.mem_cons_of_mem _ hx)), .inl hc⟩
      · simp only [resolve, hd, he, if_false]
        by_cases hcur : (∃ c, cur ++ [e] = root ++ c) ∧ ∀ e ∈ es, e ≠ [46, 46]
        · obtain ⟨⟨c, hc⟩, hes⟩ := hcur
          have hin : inX root (absPath (cur ++ [e])) = true := by
            rw [hc]
            exact inX_abs (by rw [← hc]; exact hel1)
          rw [hl _ hin]
          have hgo := ih (cur ++ [e]) es ⟨hel', .inl ⟨⟨c, hc⟩, hes⟩⟩
          cases hw : w.lookup (absPath (cur ++ [e])) with
          | none => exact hgo
          | some x =>
            cases x with
            | dir => exact hgo
            | file d => exact hgo
            | link t =>
              obtain ⟨ht, names, hn, hu⟩ := hg _ t hin hw
              dsimp only
              by_cases hlast : es = [] ∧ last = false
              · rw [if_pos hlast, if_pos hlast]
                refine ⟨rfl, fun q hq => ?_⟩
                cases hq
                exact ⟨⟨c, hc⟩, hel1⟩
              · rw [if_neg hlast, if_neg hlast, if_pos ht, hn, List.append_assoc]
                refine ih [] _ (safely_start (fun x hx => ?_) fun x hx => ?_)
                · rw [← List.append_assoc, ← hn] at hx
                  rcases List.mem_append.1 hx with hx | hx
                  · exact elems_elem t x hx
                  · exact hel' x (List.mem_append_right _ hx)
                · rcases List.mem_append.1 hx with hx | hx
                  · exact hu x hx
                  · exact hes x hx
        · rcases hs with ⟨⟨c, rfl⟩, h⟩ | ⟨e', m, r, h1, h2, h3⟩
          · exact absurd ⟨⟨c ++ [e], by simp⟩, fun x hx => h x (List.mem_cons_of_mem _ hx)⟩ hcur
          · cases h2
            cases m with
            | nil => exact absurd ⟨⟨[], by simp [h1]⟩, h3⟩ hcur
            | cons e2 m =>
              have hout : inX root (absPath (cur ++ [e])) = false := by
                unfold inX
                rw [elems_absPath' hel1]
                refine Bool.eq_false_iff.2 fun hp => ?_
                have := (List.isPrefixOf_iff_prefix.1 hp).length_le
                rw [h1] at this
                simp at this
              have hpre : elems (absPath (cur ++ [e])) <+: root := by
                rw [elems_absPath' hel1, h1]
                exact ⟨e2 :: m, by simp⟩
              have hgo := ih (cur ++ [e]) (e2 :: m ++ r) ⟨hel', .inr ⟨e2, m, r, by simp [h1], rfl, h3⟩⟩
              have hn : ∀ u : Tree, Above root u → resolve u last (n + 1) cur (e :: (e2 :: m ++ r)) =
                  resolve u last n (cur ++ [e]) (e2 :: m ++ r) := by
                intro u hu
                simp only [resolve, hd, he, if_false]
                cases hx : u.lookup (absPath (cur ++ [e])) with
                | none => rfl
                | some x =>
                  cases x with
                  | dir => rfl
                  | file d => rfl
                  | link t => exact absurd hpre (hu _ (lookup_mem hx) hout t rfl)
              have h4 := hn w hw
              have h5 := hn v hv
              simp only [resolve, hd, he, if_false] at h4 h5
              exact ⟨h5.trans (hgo.1.trans h4.symm), fun q hq => hgo.2 q (h4.symm.trans hq)⟩

theorem below_elems (hroot : ∀ e ∈ root, Proper e) {p : GoString} (h : Below (.abs root) p) : Safely root [] (elems p) := by
  obtain ⟨names, hn, rfl⟩ := h
  have he : ∀ e ∈ root ++ names, Elem e := fun e he => by
    rcases List.mem_append.1 he with he | he
    · exact ⟨(hroot e he).1, (hroot e he).2.1⟩
    · exact ⟨(hn e he).1, (hn e he).2.1⟩
  have e : elems ((Root.abs root).under names) = root ++ names := elems_absPath' he
  rw [e]
  exact safely_start he fun x hx => (hn x hx).2.2.2

/-- what lies in a directory inside lies inside too -/
theorem parent_in {q : GoString} (h : inX root (Mem.parent q) = true) : inX root q = true := by
  unfold inX at h ⊢
  rw [List.isPrefixOf_iff_prefix] at h ⊢
  refine h.trans ?_
  have hs := List.takeWhile_append_dropWhile (p := fun x : UInt8 => decide (x ≠ 47)) (l := q.reverse)
  unfold Mem.parent
  generalize hd : q.reverse.dropWhile (fun x : UInt8 => decide (x ≠ 47)) = d at hs
  generalize ht : q.reverse.takeWhile (fun x : UInt8 => decide (x ≠ 47)) = t at hs
  have hh : ∀ y ys, d = y :: ys → y = 47 := by
    intro y ys e
    have := List.head?_dropWhile_not (p := fun x : UInt8 => decide (x ≠ 47)) (l := q.reverse)
    rw [hd, e] at this
    simpa using this
  cases d with
  | nil =>
    have : elems [47] = [] := by rw [elems_slash, elems_nil]
    simp [this]
  | cons y ys =>
    have hy := hh y ys rfl
    subst hy
    have hq : q = ys.reverse ++ 47 :: t.reverse := by
      have := congrArg List.reverse hs
      simpa using this.symm
    simp only [List.drop_succ_cons, List.drop_zero]
    rw [hq, elems_join]
    cases hr : ys.reverse with
    | nil =>
      have : elems [47] = [] := by rw [elems_slash, elems_nil]
      simp [this]
    | cons z zs => exact List.prefix_append _ _

theorem SameX.lookup {w v : World} (h : SameX root w v) {p : GoString} (hp : inX root p = true) :
    v.tree.lookup p = w.tree.lookup p := by
  have h1 := lookup_filter (f := inX root) hp v.tree
  have h2 := lookup_filter (f := inX root) hp w.tree
  rw [← h1, ← h2]
  exact congrArg (List.lookup p) h.inside

theorem find_same (hroot : ∀ e ∈ root, Proper e) {w v : World} (h : SameX root w v) {p : GoString} (hp : Below (.abs root) p) (last : Bool) :
    find v.tree last p = find w.tree last p ∧ ∀ q, find w.tree last p = some q → inX root q = true := by
  obtain ⟨h1, h2⟩ := resolve_same hroot (fun p hp => h.lookup hp)
    (fun p t hp ht => h.safe.links _ (lookup_mem ht) hp t rfl) h.safe.above h.above last 40 [] (elems p) (below_elems hroot hp)
  refine ⟨by unfold find; rw [h1], fun q hq => ?_⟩
  unfold find at hq
  cases hr : resolve w.tree last 40 [] (elems p) with
  | none =>
    rw [hr] at hq
    cases hq
  | some c =>
    rw [hr] at hq
    obtain ⟨⟨c', rfl⟩, he⟩ := h2 c hr
    cases hq
    exact inX_abs he

/-- what a step must do: return the same, keep the worlds the same inside, and leave the outside root as it is -/
def Fine (root : List Bytes) {α : Type} (w v : World) (a b : World × α) : Prop :=
  b.2 = a.2 ∧ SameX root a.1 b.1 ∧ outside root a.1 = outside root w ∧ outside root b.1 = outside root v

theorem Fine.stay {α : Type} {w v : World} (h : SameX root w v) (a : α) : Fine root w v (w, a) (v, a) := ⟨rfl, h, rfl, rfl⟩

theorem filter_put {f : GoString → Bool} (w : Tree) (p : GoString) (e : Ent) :
    (put w p e).filter (fun x => f x.1) = put (w.filter fun x => f x.1) p e ∨
    (f p = false ∧ (put w p e).filter (fun x => f x.1) = drop (w.filter fun x => f x.1) p) := by
  unfold put drop
  rw [List.filter_append, List.filter_filter, List.filter_filter]
  by_cases hf : f p = true
  · refine .inl ?_
    congr 1
    · exact List.filter_congr fun x _ => Bool.and_comm _ _
    · simp [hf]
  · refine .inr ⟨by simpa using hf, ?_⟩
    simp only [List.filter_cons, hf, List.filter_nil]
    simp only [List.append_nil, Bool.false_eq_true, if_false]
    exact List.filter_congr fun x _ => Bool.and_comm _ _

theorem drop_none {f : GoString → Bool} {p : GoString} (hp : f p = false) (w : Tree) :
    drop (w.filter fun x => f x.1) p = w.filter fun x => f x.1 := by
  unfold drop
  refine List.filter_eq_self.2 fun x hx => ?_
  have := (List.mem_filter.1 hx).2
  refine decide_eq_true fun e => ?_
  rw [e, hp] at this
  cases this

theorem filter_drop (f : GoString → Bool) (w : Tree) (p : GoString) :
    (drop w p).filter (fun x => f x.1) = drop (w.filter fun x => f x.1) p := by
  unfold drop
  rw [List.filter_filter, List.filter_filter]
  exact List.filter_congr fun x _ => Bool.and_comm _ _

theorem inside_put {p : GoString} (hp : inX root p = true) (w : Tree) (e : Ent) : inside root (put w p e) = put (inside root w) p e := by
  rcases filter_put (f := inX root) w p e with h | ⟨h, _⟩
  · exact h
  · rw [hp] at h
    cases h

theorem outside_put {p : GoString} (hp : inX root p = true) (w : Tree) (e : Ent) (o o' : List (GoString × List FileInfo)) :
    outside root ⟨put w p e, o⟩ = outside root ⟨w, o'⟩ := by
  unfold outside
  rcases filter_put (f := fun p => !inX root p) w p e with h | ⟨_, h⟩
  · dsimp only
    have : (put w p e).filter (fun x => !inX root x.1) = w.filter fun x => !inX root x.1 := by
      unfold put
      rw [List.filter_append, List.filter_filter]
      simp only [List.filter_cons, hp, List.filter_nil]
      simp only [Bool.not_true, Bool.false_eq_true, if_false, List.append_nil]
      refine List.filter_congr fun x _ => ?_
      by_cases hx : x.1 = p
      · simp [hx, hp]
      · simp [hx]
    exact this
  · dsimp only
    rw [h, drop_none (f := fun p => !inX root p) (by simp [hp])]

theorem outside_drop {p : GoString} (hp : inX root p = true) (w : Tree) (o o' : List (GoString × List FileInfo)) :
    outside root ⟨drop w p, o⟩ = outside root ⟨w, o'⟩ := by
  unfold outside
  dsimp only
  rw [filter_drop (fun p => !inX root p), drop_none (f := fun p => !inX root p) (by simp [hp])]

/-- changes of the tree that keep the links inside -/
theorem SameX.put {w v : World} (h : SameX root w v) {p : GoString} (hp : inX root p = true) {e : Ent} (he : ∀ t, e = .link t → Stays root t)
    {o : List (GoString × List FileInfo)} (ho : ∀ x ∈ o, inX root x.1 = true) :
    SameX root ⟨Links.put w.tree p e, o⟩ ⟨Links.put v.tree p e, o⟩ where
  safe := ⟨ho, fun x hx hi t ht => by
    rcases List.mem_append.1 hx with hx | hx
    · exact h.safe.links x (List.mem_filter.1 hx).1 hi t ht
    · rw [List.mem_singleton.1 hx] at ht
      exact he t ht, fun x hx hi t ht => by
    rcases List.mem_append.1 hx with hx | hx
    · exact h.safe.above x (List.mem_filter.1 hx).1 hi t ht
    · rw [List.mem_singleton.1 hx, hp] at hi
      cases hi⟩
  above x hx hi t ht := by
    rcases List.mem_append.1 hx with hx | hx
    · exact h.above x (List.mem_filter.1 hx).1 hi t ht
    · rw [List.mem_singleton.1 hx, hp] at hi
      cases hi
  inside := by
    dsimp only
    rw [inside_put hp, inside_put hp, h.inside]
  opened := rfl

theorem SameX.drop {w v : World} (h : SameX root w v) (p : GoString) {o : List (GoString × List FileInfo)}
    (ho : ∀ x ∈ o, inX root x.1 = true) : SameX root ⟨Links.drop w.tree p, o⟩ ⟨Links.drop v.tree p, o⟩ where
  safe := ⟨ho, fun x hx => h.safe.links x (List.mem_filter.1 hx).1, fun x hx => h.safe.above x (List.mem_filter.1 hx).1⟩
  above x hx := h.above x (List.mem_filter.1 hx).1
  inside := by
    have h1 := filter_drop (inX root) v.tree p
    have h2 := filter_drop (inX root) w.tree p
    exact h1.trans ((congrArg (Links.drop · p) h.inside).trans h2.symm)
  opened := rfl

theorem SameX.open_ {w v : World} (h : SameX root w v) {o : List (GoString × List FileInfo)} (ho : ∀ x ∈ o, inX root x.1 = true) :
    SameX root ⟨w.tree, o⟩ ⟨v.tree, o⟩ := ⟨⟨ho, h.safe.links, h.safe.above⟩, h.above, h.inside, rfl⟩

theorem list_same {w v : World} (h : SameX root w v) {q : GoString} (hq : inX root q = true) : list q v.tree = list q w.tree := by
  have e : ∀ u : Tree, list q u = list q (inside root u) := by
    intro u
    unfold list inside
    rw [List.filter_filter]
    congr 1
    refine List.filter_congr fun x _ => ?_
    by_cases hx : x.1 ≠ [47] ∧ Mem.parent x.1 = q
    · have : inX root x.1 = true := parent_in (by rw [hx.2]; exact hq)
      simp [this]
    · simp [hx]
  rw [e, h.inside, ← e]

theorem stat_same (hroot : ∀ e ∈ root, Proper e) {w v : World} (h : SameX root w v) {p : GoString} (hp : Below (.abs root) p) (last : Bool) :
    stat last p v.tree = stat last p w.tree := by
  unfold stat
  obtain ⟨h1, h2⟩ := find_same hroot h hp last
  rw [h1]
  cases hf : find w.tree last p with
  | none => rfl
  | some q =>
    dsimp only
    rw [h.lookup (h2 q hf)]

theorem at_same (hroot : ∀ e ∈ root, Proper e) {w v : World} (h : SameX root w v) {p : GoString} (hp : Below (.abs root) p) (last : Bool)
    {f g : GoString → Option Ent → Tree × Option GoString}
    (hfg : ∀ q, inX root q = true → ∀ e, (∀ x, e = some x → (q, x) ∈ w.tree) →
      Fine root w v (⟨(f q e).1, w.opened⟩, (f q e).2) (⟨(g q e).1, v.opened⟩, (g q e).2)) :
    Fine root w v (at_ last p w f) (at_ last p v g) := by
  unfold at_
  obtain ⟨h1, h2⟩ := find_same hroot h hp last
  rw [h1]
  cases hf : find w.tree last p with
  | none => exact .stay h _
  | some q =>
    dsimp only
    rw [h.lookup (h2 q hf)]
    exact hfg q (h2 q hf) _ fun x hx => lookup_mem hx

theorem exec_fine (hroot : ∀ e ∈ root, Proper e) (c : HCall Nat) (hc : ∀ x ∈ c.paths, Below (.abs root) x) {w v : World} (h : SameX root w v) :
    Fine root w v (hostL.exec c w) (hostL.exec c v) := by
  have hopen := h.safe.opened
  have hlast : ∀ q l, inX root q = true → ∀ x ∈ w.opened ++ [(q, l)], inX root x.1 = true := by
    intro q l hq x hx
    rcases List.mem_append.1 hx with hx | hx
    · exact hopen x hx
    · rw [List.mem_singleton.1 hx]
      exact hq
  have hset : ∀ i q (l : List FileInfo), inX root q = true → ∀ x ∈ w.opened.set i (q, l), inX root x.1 = true := by
    intro i q l hq x hx
    rcases List.mem_or_eq_of_mem_set hx with hx | hx
    · exact hopen x hx
    · rw [hx]
      exact hq
  cases c with
  | lstat p => exact ⟨stat_same hroot h (hc p (by simp [HCall.paths])) _, h, rfl, rfl⟩
  | stat p => exact ⟨stat_same hroot h (hc p (by simp [HCall.paths])) _, h, rfl, rfl⟩
  | openFile p flags m =>
    simp only [Host.exec, hostL]
    obtain ⟨h1, h2⟩ := find_same hroot h (hc p (by simp [HCall.paths])) true
    rw [h1]
    cases hf : find w.tree true p with
    | none => exact .stay h _
    | some q =>
      have hq := h2 q hf
      dsimp only
      rw [h.lookup hq, h.opened]
      cases hw : w.tree.lookup q with
      | none =>
        dsimp only
        split
        · exact ⟨rfl, h.put hq (by intro t ht; cases ht) (hlast q _ hq), outside_put hq _ _ _ _, outside_put hq _ _ _ _⟩
        · exact .stay h _
      | some e =>
        cases e with
        | file d =>
          dsimp only
          split
          · exact ⟨rfl, h.put hq (by intro t ht; cases ht) (hlast q _ hq), outside_put hq _ _ _ _, outside_put hq _ _ _ _⟩
          · exact ⟨rfl, h.open_ (hlast q _ hq), rfl, rfl⟩
        | dir =>
          dsimp only
          rw [list_same h hq]
          exact ⟨rfl, h.open_ (hlast q _ hq), rfl, rfl⟩
        | link t =>
          dsimp only
          rw [list_same h hq]
          exact ⟨rfl, h.open_ (hlast q _ hq), rfl, rfl⟩
  | mkdir p m =>
    simp only [Host.exec, hostL]
    refine at_same hroot h (hc p (by simp [HCall.paths])) false fun q hq e _ => ?_
    cases e with
    | some e => exact .stay h _
    | none =>
      rw [h.opened]
      exact ⟨rfl, h.put hq (by intro t ht; cases ht) hopen, outside_put hq _ _ _ _, outside_put hq _ _ _ _⟩
  | chmod p m =>
    simp only [Host.exec, hostL]
    exact at_same hroot h (hc p (by simp [HCall.paths])) true fun q hq e _ => .stay h _
  | rename p q =>
    simp only [Host.exec, hostL]
    obtain ⟨h1, h2⟩ := find_same hroot h (hc p (by simp [HCall.paths])) false
    obtain ⟨h3, h4⟩ := find_same hroot h (hc q (by simp [HCall.paths])) false
    rw [h1, h3]
    cases hf : find w.tree false p with
    | none => exact .stay h _
    | some p' =>
      cases hf' : find w.tree false q with
      | none => exact .stay h _
      | some q' =>
        have hp := h2 p' hf
        have hq := h4 q' hf'
        dsimp only
        rw [h.lookup hp]
        cases hw : w.tree.lookup p' with
        | none => exact .stay h _
        | some e =>
          dsimp only
          rw [h.opened]
          have hd := h.drop p' hopen
          exact ⟨rfl, hd.put hq (fun t ht => h.safe.links _ (lookup_mem hw) hp t ht) hopen,
            (outside_put hq _ _ _ w.opened).trans (outside_drop hp _ _ w.opened),
            (outside_put hq _ _ _ v.opened).trans (outside_drop hp _ _ v.opened)⟩
  | truncate p n =>
    simp only [Host.exec, hostL]
    refine at_same hroot h (hc p (by simp [HCall.paths])) true fun q hq e _ => ?_
    cases e with
    | none => exact .stay h _
    | some e =>
      cases e with
      | file d =>
        dsimp only
        rw [h.opened]
        exact ⟨rfl, h.put hq (by intro t ht; cases ht) hopen, outside_put hq _ _ _ _, outside_put hq _ _ _ _⟩
      | dir => exact .stay h _
      | link t => exact .stay h _
  | chtimes p a m =>
    simp only [Host.exec, hostL]
    exact at_same hroot h (hc p (by simp [HCall.paths])) true fun q hq e _ => .stay h _
  | remove p =>
    simp only [Host.exec, hostL]
    refine at_same hroot h (hc p (by simp [HCall.paths])) false fun q hq e _ => ?_
    dsimp only
    rw [h.opened]
    exact ⟨rfl, h.drop q hopen, outside_drop hq _ _ _, outside_drop hq _ _ _⟩
  | close i => exact .stay h _
  | sync i => exact .stay h _
  | seek0 i =>
    simp only [Host.exec, hostL]
    rw [h.opened]
    cases ho : w.opened[i]? with
    | none => exact .stay h _
    | some o =>
      have hq := hopen o (List.mem_of_getElem? ho)
      dsimp only
      rw [list_same h hq]
      exact ⟨rfl, h.open_ (hset i _ _ hq), rfl, rfl⟩
  | readdir1 i =>
    simp only [Host.exec, hostL]
    rw [h.opened]
    cases ho : w.opened[i]? with
    | none => exact .stay h _
    | some o =>
      have hq := hopen o (List.mem_of_getElem? ho)
      obtain ⟨q, l⟩ := o
      cases l with
      | nil => exact .stay h _
      | cons fi r => exact ⟨rfl, h.open_ (hset i _ _ hq), rfl, rfl⟩
  | readAt i n off =>
    simp only [Host.exec, hostL]
    rw [h.opened]
    cases ho : w.opened[i]? with
    | none => exact .stay h _
    | some o =>
      dsimp only
      rw [h.lookup (hopen o (List.mem_of_getElem? ho))]
      cases w.tree.lookup o.1 with
      | none => exact .stay h _
      | some e => cases e <;> exact .stay h _
  | writeAt i b off =>
    simp only [Host.exec, hostL]
    rw [h.opened]
    cases ho : w.opened[i]? with
    | none => exact .stay h _
    | some o =>
      have hq := hopen o (List.mem_of_getElem? ho)
      dsimp only
      rw [h.lookup hq]
      cases w.tree.lookup o.1 with
      | none => exact .stay h _
      | some e =>
        cases e with
        | file d => exact ⟨rfl, h.put hq (by intro t ht; cases ht) hopen, outside_put hq _ _ _ _, outside_put hq _ _ _ _⟩
        | dir => exact .stay h _
        | link t => exact .stay h _

theorem SameX.refl {w : World} (h : Safe root w) : SameX root w w := ⟨h, h.above, rfl, rfl⟩

theorem links_apart (hroot : ∀ e ∈ root, Proper e) : KeepsApart hostL (.abs root) (SameX root) := fun c _ _ h hc =>
  ⟨(exec_fine hroot c hc h).1, (exec_fine hroot c hc h).2.1⟩

/-- **C121, partial** On a file system with symbolic links, where all links below the root are absolute and lead straight
down from the root, and the root is not reached through a link: whatever the connections do, however many there are and
however their requests overlap, and whatever other processes do outside, with another outside the same happens, and the
outside stays as it is. -/
theorem C121_links_partial (user : GoString) {rootPath : GoString} (hp : rootPath.head? = some 47)
    (hroot : root = place [] (elems rootPath)) {w0 v0 : World} (ha : SameX root w0 v0) {ls : List (Label World Nat)}
    {p : TProc World Nat} (hr : TRunIf hostL user rootPath ModestPacket w0 ls p) :
    ((∀ w, Label.other w ∈ ls → ∃ u, SameX root w u) → ∃ ls' u, Pairs (LabelAlike (SameX root)) ls ls' ∧
      TRunIf hostL user rootPath ModestPacket v0 ls' ⟨u, p.thr⟩ ∧ SameX root p.world u) ∧
    ((∀ w, Label.other w ∈ ls → Safe root w ∧ outside root w = outside root w0) → outside root p.world = outside root w0) := by
  have hpr : ∀ e ∈ root, Proper e := by
    rw [hroot]
    exact noRoot_proper rootPath
  have e : rootOf rootPath = .abs root := by
    rw [hroot]
    exact if_pos (.inr hp)
  refine ⟨fun ho => C121_unseen_partial (by rw [e]; exact links_apart hpr) ha hr ho, fun ho => ?_⟩
  refine C121_unchanged_partial (outside root) (Safe root) (fun c _ hw hc => ?_) ha.safe hr ho
  rw [e] at hc
  exact ⟨(exec_fine hpr c hc (.refl hw)).2.1.safe, (exec_fine hpr c hc (.refl hw)).2.2.1⟩

end

/-- as `tree`, but the link is "/x/s" -/
def tree' (d : Bytes) : Tree :=
  [([47], .dir), ([47, 120], .dir), ([47, 120, 47, 115], .file [1]), ([47, 120, 47, 100], .dir),
    ([47, 120, 47, 100, 47, 108], .link [47, 120, 47, 115]), ([47, 115], .file d)]

theorem tree'_safe (d : Bytes) : Safe [[120]] ⟨tree' d, []⟩ := by
  refine ⟨(fun o ho => by cases ho), fun x hx _ t ht => ?_, fun x hx hi t ht => ?_⟩
  · simp only [tree', List.mem_cons, List.not_mem_nil, or_false] at hx
    rcases hx with rfl | rfl | rfl | rfl | rfl | rfl <;> cases ht
    have e : elems [47, 120, 47, 115] = [[120], [115]] := by decide +kernel
    exact ⟨rfl, [[115]], e, by simp⟩
  · simp only [tree', List.mem_cons, List.not_mem_nil, or_false] at hx
    rcases hx with rfl | rfl | rfl | rfl | rfl | rfl <;> cases ht
    exact absurd hi (by decide +kernel)

/-- C121: such file systems that differ outside; and the session of the counterexample reads the file inside, through
the link in its new place -/
example : SameX (place [] (elems [47, 120])) ⟨tree' [7], []⟩ ⟨tree' [8, 9], []⟩ ∧
    (toldAll hostL [103] session (newFS [47, 120] ⟨tree' [7], []⟩)).getLast? = some (some (.ok (.read ⟨[1]⟩))) := by
  have e : place [] (elems [47, 120]) = [[120]] := by decide +kernel
  have e1 : elems [47, 115] = [[115]] := by decide +kernel
  rw [e]
  refine ⟨⟨tree'_safe _, (tree'_safe _).above, ?_, rfl⟩, by decide +kernel⟩
  simp [inside, tree', inX, List.filter_cons, e1, List.isPrefixOf]

/-- C121: the tree of the counterexample is not of this kind -/
example (d : Bytes) : ¬ Safe [[120]] ⟨tree d, []⟩ := fun h => by
  have := (h.links ([47, 120, 47, 100, 47, 108], .link [46, 46, 47, 115]) (by simp [tree]) (by decide +kernel) _ rfl).1
  cases this

end Ninep.Ufs.Links
