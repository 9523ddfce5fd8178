import Verif.Props.Shared
import Verif.Props.Ufs
/-
A shared `FileServer` on which calls overlap only if neither changes a fid that the other names: the calls have the results that they have one after the
other, in the order in which they finish.
-/

namespace Ninep.Ufs.Shared
open Spec

section
variable {ω H : Type} {user rootPath : GoString} {iounit : MaxSize} {host : Host ω H} {w0 : ω}

/-! ### The statement -/

/-- the call that goroutine `g` is in after the steps `ls` -/
def inCall (g : Nat) (ls : List (SLabel ω H)) : Option TMsg :=
  ls.foldl (fun acc l => match l with
    | .begin g' m => if g' = g then some m else acc
    | .done g' _ => if g' = g then none else acc
    | _ => acc) none

/-- the fids that a call can change: what they stand for, or the open file -/
def alters : TMsg → List FID
  | .walk p => [p.NewFID]
  | .stat _ => []
  | .write _ => []
  | m => Spec.fids m

def MOp.isStore : MOp H → Bool
  | .store _ _ _ => true
  | _ => false

/-- goroutine `g` has stored into a structure in the call that it is in after the steps `ls` -/
def stored (g : Nat) (ls : List (SLabel ω H)) : Bool :=
  ls.foldl (fun acc l => match l with
    | .begin g' _ => if g' = g then false else acc
    | .op g' c => acc || (g' == g && c.isStore)
    | _ => acc) false

/-- goroutine `g` stores into a structure in the rest of the call that it is in before the steps `ls` -/
def stores (g : Nat) : List (SLabel ω H) → Bool
  | [] => false
  | .op g' c :: ls => (g' == g && c.isStore) || stores g ls
  | .done g' _ :: ls => if g' = g then false else stores g ls
  | _ :: ls => stores g ls

/-- The fids that the call changes which goroutine `g` is in between the steps `ls` and the steps `rest`. A read changes its fid if it
stores into the structure, which it does for a directory. -/
def changes (g : Nat) (m : TMsg) (ls rest : List (SLabel ω H)) : List FID :=
  match m with
  | .read p => if stored g ls || stores g rest then [p.OFID] else []
  | m => alters m

/-- Of two calls that overlap neither changes a fid that the other names: a goroutine calls a method only if no other goroutine is in a
call that changes one of its fids, or that names one which it changes. -/
def Separate (ls : List (SLabel ω H)) : Prop :=
  ∀ ls1 ls2 g m, ls = ls1 ++ .begin g m :: ls2 → ∀ g' m', inCall g' ls1 = some m' →
    (∀ f ∈ Spec.fids m, f ∉ changes g' m' ls1 (.begin g m :: ls2)) ∧ ∀ f ∈ changes g m (ls1 ++ [.begin g m]) ls2, f ∉ Spec.fids m'

/-- the calls that are finished, one after the other, and what the calls that are not have done so far -/
structure Book (H : Type) where
  out : List (Seen H) := []
  now : Nat → List (Seen H) := fun _ => []

def Book.set (b : Book H) (g : Nat) (l : List (Seen H)) : Book H := { b with now := fun i => if i = g then l else b.now i }

/-- A call is written down when it finishes: with the calls of the operating system that it has made, and its result. -/
def Book.add (b : Book H) : SLabel ω H → Book H
  | .begin g m => b.set g [.begin m]
  | .call g e => b.set g (b.now g ++ [.call e])
  | .done g r => { b with out := b.out ++ b.now g ++ [.done r] }
  | .op _ _ => b
  | .other _ => b

def book (ls : List (SLabel ω H)) : Book H := ls.foldl Book.add {}

/-- the finished calls, in the order in which they have finished -/
def serial (ls : List (SLabel ω H)) : List (Seen H) := (book ls).out

/-! ### Lemmas -/

theorem book_snoc (ls : List (SLabel ω H)) (l : SLabel ω H) : book (ls ++ [l]) = (book ls).add l := by
  simp [book, List.foldl_append]

theorem inCall_snoc (g : Nat) (ls : List (SLabel ω H)) (l : SLabel ω H) : inCall g (ls ++ [l]) =
    match l with
    | .begin g' m => if g' = g then some m else inCall g ls
    | .done g' _ => if g' = g then none else inCall g ls
    | _ => inCall g ls := by
  simp only [inCall, List.foldl_append, List.foldl_cons, List.foldl_nil]

theorem inCall_run {ls : List (SLabel ω H)} {s : SSys ω H} (h : SRun user rootPath iounit host w0 ls s) (g : Nat) :
    inCall g ls = (s.run g).map Prod.fst := by
  induction h with
  | init => rfl
  | @step ls s s' l c h hs ih =>
    rw [inCall_snoc]
    rcases step_cases hs with ⟨g', m', rfl, h1, rfl⟩ | ⟨g', m', r, rfl, h1, rfl⟩ | ⟨g', m', c', k, mem, a, rfl, h1, h2, rfl⟩ |
      ⟨g', m', c', k, rfl, h1, rfl⟩ | ⟨w, rfl, rfl⟩ <;> simp only [SSys.setRun]
    · by_cases e : g' = g
      · subst e; simp
      · simp [e, Ne.symm e, ih]
    · by_cases e : g' = g
      · subst e; simp
      · simp [e, Ne.symm e, ih]
    · by_cases e : g' = g
      · subst e; simp [ih, h1]
      · simp [Ne.symm e, ih]
    · by_cases e : g' = g
      · subst e; simp [ih, h1]
      · simp [Ne.symm e, ih]
    · exact ih

theorem rel_path {σ τ α : Type} {P : σ → τ → Prop} {p q : Prog H (σ × α)} {p' : Prog H (τ × α)} {evs : List (Ev H)} (h : Rel P Eq p p')
    (hp : p.Path evs q) : ∃ q', p'.Path evs q' ∧ Rel P Eq q q' := by
  induction hp generalizing p' with
  | nil => exact ⟨p', .nil, h⟩
  | cons _ ih =>
    cases h with
    | call h1 =>
      obtain ⟨q', h2, h3⟩ := ih (h1 _)
      exact ⟨q', .cons h2, h3⟩

/-- two programs that are like a third one -/
theorem rel_join {σ τ υ α : Type} {P : σ → τ → Prop} {P' : σ → υ → Prop} {p : Prog H (σ × α)} {q : Prog H (τ × α)} {r : Prog H (υ × α)}
    (h : Rel P Eq p q) (h' : Rel P' Eq p r) : Rel (fun t u => ∃ s, P s t ∧ P' s u) Eq q r := by
  induction h generalizing r with
  | ret h1 h2 =>
    subst h2
    cases h' with
    | ret h3 h4 => subst h4; exact .ret ⟨_, h1, h3⟩ rfl
  | panic => cases h'; exact .panic
  | call _ ih =>
    cases h' with
    | call h2 => exact .call fun a => ih a (h2 a)

/-- the two objects are the same for the fids `V` -/
structure Alike (V : FID → Prop) (o o' : Obj H) : Prop where
  files : ∀ f, V f → o'.files f = o.files f
  root : o'.rootPath = o.rootPath
  io : o'.IOunit = o.IOunit

/-- a memory with the structures of the object -/
def memOf (o : Obj H) : SMem H where
  files f := (o.files f).map fun _ => (0, f.toNat)
  heap p := (o.files (UInt32.ofNat p.2)).getD { qid := {}, fullName := [] }
  next _ := 2 ^ 32

theorem memOf_agrees {V : FID → Prop} {o o' : Obj H} (h : Alike V o o') :
    Agrees o.rootPath o.IOunit 0 (fun _ => True) V (memOf o) o' where
  own f _ p hp := by
    simp only [memOf, Option.map_eq_some_iff] at hp
    obtain ⟨_, _, rfl⟩ := hp
    exact ⟨trivial, f.toNat_lt⟩
  mine _ _ := trivial
  inj f f' _ _ p h1 h2 := by
    simp only [memOf, Option.map_eq_some_iff] at h1 h2
    obtain ⟨_, _, rfl⟩ := h1
    obtain ⟨_, _, e⟩ := h2
    exact (UInt32.toNat_inj.1 (congrArg Prod.snd e)).symm
  files f hf := by
    rw [h.files f hf]
    simp only [memOf]
    cases e : o.files f with
    | none => rfl
    | some x => simp [e]
  root := h.root
  io := h.io

/-- What a call does depends on the fids that it names only. -/
theorem alike_call (user : GoString) {m : TMsg} {o o' : Obj H} (h : Alike (· ∈ Spec.fids m) o o') :
    Rel (Alike (· ∈ Spec.fids m)) Eq (pcall user m o) (pcall user m o') := by
  have h1 := same_call user (memOf_agrees (V := (· ∈ Spec.fids m)) (o := o) (o' := o) ⟨fun _ _ => rfl, rfl, rfl⟩) m fun f hf => hf
  have h2 := same_call user (memOf_agrees h) m fun f hf => hf
  have h3 := rel_join h1 h2
  have gen : ∀ {p q : Prog H (Obj H × Except GoString RMsg)} {P Q : Obj H → Obj H → Prop}, (∀ a b, P a b → Q a b) → Rel P Eq p q → Rel Q Eq p q := by
    intro p q P Q hPQ h
    induction h with
    | ret h1 h2 => exact .ret (hPQ _ _ h1) h2
    | panic => exact .panic
    | call _ ih => exact .call ih
  refine gen ?_ h3
  rintro a b ⟨s, ha, hb⟩
  exact ⟨fun f hf => (hb.files f hf).trans (ha.files f hf).symm, hb.root.trans ha.root.symm, hb.io.trans ha.io.symm⟩

theorem alters_fids {m : TMsg} {f : FID} (h : f ∈ alters m) : f ∈ Spec.fids m := by
  cases m <;> simp_all [alters, Spec.fids]

theorem changes_alters {g : Nat} {m : TMsg} {ls rest : List (SLabel ω H)} {f : FID} (h : f ∈ changes g m ls rest) : f ∈ alters m := by
  cases m with
  | read p =>
    simp only [changes] at h
    split at h
    · exact h
    · cases h
  | _ => exact h

theorem changes_fids {g : Nat} {m : TMsg} {ls rest : List (SLabel ω H)} {f : FID} (h : f ∈ changes g m ls rest) : f ∈ Spec.fids m :=
  alters_fids (changes_alters h)

/-- what a call changes stays the same until it ends -/
theorem changes_step {g : Nat} {m : TMsg} {ls rest : List (SLabel ω H)} {l : SLabel ω H} (h1 : ∀ m, l ≠ .begin g m) (h2 : ∀ r, l ≠ .done g r) :
    changes g m (ls ++ [l]) rest = changes g m ls (l :: rest) := by
  have : (stored g (ls ++ [l]) || stores g rest) = (stored g ls || stores g (l :: rest)) := by
    unfold stored
    rw [List.foldl_append]
    cases l with
    | begin g' m' =>
      have : g' ≠ g := by rintro rfl; exact h1 _ rfl
      simp [stores, this]
    | done g' r =>
      have : g' ≠ g := by rintro rfl; exact h2 _ rfl
      simp [stores, this]
    | op g' c => simp [stores, Bool.or_assoc]
    | call g' e => simp [stores]
    | other w => simp [stores]
  unfold changes
  rw [this]

/-- A call changes the fids only that it names. -/
theorem path_frame {m : TMsg} {o o' : Obj H} {evs : List (Ev H)} {r : Except GoString RMsg} (hp : (pcall user m o).Path evs (.ret (o', r))) :
    (∀ f, f ∉ Spec.fids m → o'.files f = o.files f) ∧ o'.rootPath = o.rootPath ∧ o'.IOunit = o.IOunit := by
  have hrun : (pcall user m o).run (scripted H) ⟨evs, []⟩ = some (⟨[], evs⟩, (o', r)) := by
    have := hp.replay rfl [] []
    simpa using this
  have hcall : Spec.call (ufs (scripted H) user) m (o.into ⟨evs, []⟩) = toRes (some (⟨[], evs⟩, (o', r))) := by
    rw [run_call]
    exact congrArg toRes hrun
  exact C42_frame (host := scripted H) (user := user) (m := m) (s := o.into ⟨evs, []⟩) (s' := o'.into ⟨[], evs⟩) (by
    rw [hcall]
    cases r <;> rfl)

/-- what an operation in memory leaves alone: the fids that the call does not change, and the pointers that are not `X` -/
theorem act_leaves {g : Nat} {A : List FID} {X O : Ptr → Prop} {s mem : SMem H} {m : TMsg} {x : Knows} {c : MOp H} {a : c.Ans} (h : s.act g c = some (mem, a))
    (hm : c.May (· ∈ Spec.fids m) O m x) (hg : ∀ n, s.next g ≤ n → X (g, n))
    (hA : (∀ p, m ≠ .read p) → A = alters m) (hc : c.isStore = true → ∀ p, O p → X p) :
    (∀ f, f ∉ A → mem.files f = s.files f) ∧ (∀ p, ¬ X p → mem.heap p = s.heap p) ∧
    (∀ g', g' ≠ g → mem.next g' = s.next g') ∧ ∀ g', s.next g' ≤ mem.next g' := by
  cases c with
  | lock =>
    simp only [SMem.act] at h
    split at h
    · cases h; exact ⟨fun _ _ => rfl, fun _ _ => rfl, fun _ _ => rfl, fun _ => Nat.le_refl _⟩
    · cases h
  | unlock =>
    simp only [SMem.act] at h
    split at h
    · cases h; exact ⟨fun _ _ => rfl, fun _ _ => rfl, fun _ _ => rfl, fun _ => Nat.le_refl _⟩
    · cases h
  | assign fid p =>
    cases h
    refine ⟨fun f hf => ?_, fun _ _ => rfl, fun _ _ => rfl, fun _ => Nat.le_refl _⟩
    have : f ≠ fid := by
      rintro rfl
      rcases hm.2.2.2 with ⟨q, rfl, rfl⟩ | ⟨_, q, rfl, rfl, _⟩ <;> exact hf (by rw [hA (by simp)]; simp [alters, Spec.fids])
    simp [this]
  | delete fid =>
    cases h
    refine ⟨fun f hf => ?_, fun _ _ => rfl, fun _ _ => rfl, fun _ => Nat.le_refl _⟩
    have : f ≠ fid := by
      rintro rfl
      rcases hm.2.2.2 with ⟨q, rfl, rfl⟩ | ⟨q, rfl, rfl⟩ <;> exact hf (by rw [hA (by simp)]; simp [alters, Spec.fids])
    simp [this]
  | alloc fl =>
    cases h
    refine ⟨fun _ _ => rfl, fun p hp => ?_, fun g' e => ?_, fun g' => ?_⟩
    · have : p ≠ (g, s.next g) := by rintro rfl; exact hp (hg _ (Nat.le_refl _))
      simp [this]
    · simp [e]
    · dsimp only
      split
      · rename_i e; subst e; exact Nat.le_succ _
      · exact Nat.le_refl _
  | store p f v =>
    cases h
    refine ⟨fun _ _ => rfl, fun q hq => ?_, fun _ _ => rfl, fun _ => Nat.le_refl _⟩
    have : q ≠ p := by rintro rfl; exact hq (hc rfl q hm.1)
    simp [this]
  | _ => cases h; exact ⟨fun _ _ => rfl, fun _ _ => rfl, fun _ _ => rfl, fun _ => Nat.le_refl _⟩

/-! ### The invariant -/

/-- what goroutine `g`, in a call of `m`, may look at and has for itself: the pointers `O` and `X`;
`A` are the fids that the call changes -/
structure Holds (user rootPath : GoString) (iounit : MaxSize) (A : List FID) (O X : Ptr → Prop) (o : Obj H) (now : List (Seen H)) (mem : SMem H) (g : Nat) (m : TMsg)
    (p : MMet H RMsg) : Prop where
  sim : ∃ evs q, now = .begin m :: evs.map .call ∧ (pcall user m o).Path evs q ∧
    Same rootPath iounit g O (· ∈ Spec.fids m) (p.alone g mem) q
  obeys : ∃ x, Obeys (· ∈ Spec.fids m) O m x p ∧ ∀ q, x.fresh = some q → X q
  sub : ∀ p, X p → O p
  wr : A = Spec.fids m → ∀ p, O p → X p
  tab : ∀ f ∈ Spec.fids m, ∀ p, mem.files f = some p → O p
  tabX : ∀ f ∈ A, ∀ p, mem.files f = some p → X p
  fut : ∀ n, mem.next g ≤ n → X (g, n)
  only : ∀ p, O p → ∀ f, mem.files f = some p → f ∈ Spec.fids m
  onlyX : ∀ p, X p → ∀ f, mem.files f = some p → f ∈ A
  old : ∀ p, O p → p.1 = g ∨ p.2 < mem.next p.1

/-- the object `o` is what the finished calls make of a new one -/
structure Together (user rootPath : GoString) (iounit : MaxSize) (ls rest : List (SLabel ω H)) (s : SSys ω H) (o : Obj H)
    (O X : Nat → Ptr → Prop) : Prop where
  alone : Alone user rootPath iounit (serial ls) o
  root : o.rootPath = rootPath
  io : o.IOunit = iounit
  idle : ∀ f, (∀ g m p, s.run g = some (m, p) → f ∉ changes g m ls rest) → o.files f = (s.mem.files f).map s.mem.heap
  busy : ∀ g m p, s.run g = some (m, p) → Holds user rootPath iounit (changes g m ls rest) (O g) (X g) o ((book ls).now g) s.mem g m p
  apart : ∀ g g' m m' p p', g ≠ g' → s.run g = some (m, p) → s.run g' = some (m', p') →
    (∀ f ∈ Spec.fids m, f ∉ changes g' m' ls rest) ∧ ∀ q, O g q → ¬ X g' q

theorem same_alike {g : Nat} {O : Ptr → Prop} {V : FID → Prop} {p : Prog H (SMem H × Except GoString RMsg)}
    {q q' : Prog H (Obj H × Except GoString RMsg)} (h : Same rootPath iounit g O V p q) (h' : Rel (Alike V) Eq q q') :
    Same rootPath iounit g O V p q' :=
  rel_comp (P := Agrees rootPath iounit g O V) (P' := Alike V) (P'' := Agrees rootPath iounit g O V)
    (fun _ _ _ h1 h2 => ⟨h1.own, h1.mine, h1.inj, fun f hf => (h2.files f hf).trans (h1.files f hf), h2.root.trans h1.root, h2.io.trans h1.io⟩) h h'

theorem together {ls : List (SLabel ω H)} {s : SSys ω H} (h : SRun user rootPath iounit host w0 ls s) (rest : List (SLabel ω H))
    (hsep : Separate (ls ++ rest)) : ∃ o O X, Together user rootPath iounit ls rest s o O X := by
  induction h generalizing rest with
  | init => exact ⟨_, fun _ _ => False, fun _ _ => False, .nil, rfl, rfl, fun _ _ => rfl, by simp, by simp⟩
  | @step ls s s' l c h hs ih =>
    obtain ⟨o, O, X, T⟩ := ih (l :: rest) (by simpa using hsep)
    have F := fresh h
    have G := good_named h h (List.prefix_refl _)
    have talloc : ∀ f p, s.mem.files f = some p → p.2 < s.mem.next p.1 := fun f p hp => by
      obtain ⟨_, _, _, h3⟩ := F.assigned f p (G.tab f p hp)
      exact h3
    have tinj : ∀ f f' p, s.mem.files f = some p → s.mem.files f' = some p → f = f' := fun f f' p h1 h2 =>
      F.once f f' p (G.tab f p h1) (G.tab f' p h2)
    rcases step_cases hs with ⟨g, m, rfl, h1, rfl⟩ | ⟨g, m, r, rfl, h1, rfl⟩ | ⟨g, m, c, k, mem, a, rfl, h1, h2, rfl⟩ |
      ⟨g, m, c, k, rfl, h1, rfl⟩ | ⟨w, rfl, rfl⟩
    · -- a call begins
      have hd : ∀ g' m' p', s.run g' = some (m', p') → (∀ f ∈ Spec.fids m, f ∉ changes g' m' ls (.begin g m :: rest)) ∧
          ∀ f ∈ changes g m (ls ++ [.begin g m]) rest, f ∉ Spec.fids m' := fun g' m' p' hr =>
        hsep ls rest g m (by simp) g' m' (by rw [inCall_run h, hr]; rfl)
      have hst : ∀ i m', i ≠ g → changes i m' (ls ++ [.begin g m]) rest = changes i m' ls (.begin g m :: rest) := fun i m' e =>
        changes_step (by rintro m'' h; cases h; exact e rfl) (by simp)
      have hrest : ∀ f ∈ Spec.fids m, o.files f = (s.mem.files f).map s.mem.heap := fun f hf =>
        T.idle f fun g' m' p' hr => (hd g' m' p' hr).1 f hf
      let N : List FID → Ptr → Prop := fun V p => (∃ f ∈ V, s.mem.files f = some p) ∨ (p.1 = g ∧ s.mem.next g ≤ p.2)
      have hnew : ∀ g' m' p', s.run g' = some (m', p') → ∀ q, q.1 = g → s.mem.next g ≤ q.2 → ¬ O g' q := by
        intro g' m' p' hr q hq1 hq2 hO
        have hgg : g' ≠ g := by rintro rfl; rw [h1] at hr; cases hr
        rcases (T.busy g' m' p' hr).old q hO with e | e
        · exact hgg (e.symm.trans hq1)
        · rw [hq1] at e; omega
      have hNd : ∀ g' m' p', s.run g' = some (m', p') → ∀ q, N (Spec.fids m) q → ¬ X g' q := by
        rintro g' m' p' hr q (⟨f, hf, hq⟩ | ⟨hq1, hq2⟩) hO
        · exact (hd g' m' p' hr).1 f hf ((T.busy g' m' p' hr).onlyX q hO f hq)
        · exact hnew g' m' p' hr q hq1 hq2 ((T.busy g' m' p' hr).sub q hO)
      have hNd' : ∀ g' m' p', s.run g' = some (m', p') → ∀ q, O g' q → ¬ N (changes g m (ls ++ [.begin g m]) rest) q := by
        rintro g' m' p' hr q hO (⟨f, hf, hq⟩ | ⟨hq1, hq2⟩)
        · exact (hd g' m' p' hr).2 f hf ((T.busy g' m' p' hr).only q hO f hq)
        · exact hnew g' m' p' hr q hq1 hq2 hO
      have hfid : ∀ (V : List FID) q, N V q → ∀ f, s.mem.files f = some q → f ∈ V := by
        rintro V q (⟨f, hf, hq⟩ | ⟨hq1, hq2⟩) f' hf'
        · exact tinj f f' q hq hf' ▸ hf
        · have := talloc f' q hf'
          rw [hq1] at this
          omega
      refine ⟨o, fun i => if i = g then N (Spec.fids m) else O i, fun i => if i = g then N (changes g m (ls ++ [.begin g m]) rest) else X i,
        ?_, T.root, T.io, fun f hf => ?_, fun i m' p hi => ?_, fun i j m1 m2 p1 p2 hij hi hj => ?_⟩
      · unfold serial; rw [book_snoc]; exact T.alone
      · refine T.idle f fun g' m' p' hr => ?_
        have : g' ≠ g := by rintro rfl; rw [h1] at hr; cases hr
        rw [← hst g' m' this]
        refine hf g' m' p' ?_
        simp only [SSys.setRun, if_neg this]
        exact hr
      · simp only [SSys.setRun] at hi ⊢
        rw [book_snoc]
        by_cases e : i = g
        · subst e
          simp only [if_true] at hi ⊢
          cases hi
          refine ⟨⟨[], _, by simp [Book.add, Book.set], .nil, ?_⟩, ⟨{}, obeys_call user rootPath iounit m fun f hf => hf, by simp⟩, ?_, ?_,
            fun f hf p hp => .inl ⟨f, hf, hp⟩, fun f hf p hp => .inl ⟨f, hf, hp⟩, fun n hn => .inr ⟨rfl, hn⟩, hfid _, hfid _, ?_⟩
          · refine same_call user ⟨fun f hf p hp => ⟨.inl ⟨f, hf, hp⟩, talloc f p hp⟩, fun n hn => .inr ⟨rfl, hn⟩,
              fun f f' _ _ p h1 h2 => tinj f f' p h1 h2, hrest, T.root, T.io⟩ m fun f hf => hf
          · rintro q (⟨f, hf, hq⟩ | hq)
            · exact .inl ⟨f, changes_fids hf, hq⟩
            · exact .inr hq
          · intro hA q hq
            rw [hA]
            exact hq
          · rintro q (⟨f, hf, hq⟩ | ⟨hq1, _⟩)
            · exact .inr (talloc f q hq)
            · exact .inl hq1
        · simp only [if_neg e] at hi ⊢
          simp only [Book.add, Book.set, if_neg e]
          rw [hst i m' e]
          exact T.busy i m' p hi
      · simp only [SSys.setRun] at hi hj
        by_cases e : i = g
        · subst e
          have e' : j ≠ i := Ne.symm hij
          simp only [if_true, if_neg e'] at hi hj ⊢
          cases hi
          rw [hst j m2 e']
          exact ⟨(hd j m2 p2 hj).1, hNd j m2 p2 hj⟩
        · by_cases e' : j = g
          · subst e'
            simp only [if_true, if_neg e] at hi hj ⊢
            cases hj
            exact ⟨fun f hf hf' => (hd i m1 p1 hi).2 f hf' hf, fun q hq => hNd' i m1 p1 hi q hq⟩
          · simp only [if_neg e, if_neg e'] at hi hj ⊢
            rw [hst j m2 e']
            exact T.apart i j m1 m2 p1 p2 hij hi hj
    · -- a call ends
      obtain ⟨evs, q, hnow, hpath, hsame⟩ := (T.busy g m _ h1).sim
      cases hsame with
      | @ret _ o' _ _ hag hr =>
        subst hr
        obtain ⟨hf0, hf2, hf3⟩ := path_frame hpath
        have hst : ∀ i m', i ≠ g → changes i m' (ls ++ [.done g r]) rest = changes i m' ls (.done g r :: rest) := fun i m' e =>
          changes_step (by simp) (by rintro r' h; cases h; exact e rfl)
        have hf1 : ∀ f, f ∉ changes g m ls (.done g r :: rest) → o'.files f = o.files f := fun f hf => by
          by_cases e : f ∈ Spec.fids m
          · rw [hag.files f e, T.idle f]
            intro g' m' p' hr'
            by_cases eg : g' = g
            · subst eg; rw [h1] at hr'; cases hr'; exact hf
            · exact (T.apart g g' m m' _ _ (Ne.symm eg) h1 hr').1 f e
          · exact hf0 f e
        refine ⟨o', O, X, ?_, hf2.trans T.root, hf3.trans T.io, fun f hf => ?_, fun i m' p hi => ?_, fun i j m1 m2 p1 p2 hij hi hj => ?_⟩
        · have := alone_done T.alone hpath
          unfold serial
          rw [book_snoc]
          simp only [Book.add, hnow]
          simpa [serial] using this
        · simp only [SSys.setRun] at hf ⊢
          by_cases e : f ∈ changes g m ls (.done g r :: rest)
          · exact hag.files f (changes_fids e)
          · rw [hf1 f e]
            refine T.idle f fun g' m' p' hr' => ?_
            by_cases eg : g' = g
            · subst eg; rw [h1] at hr'; cases hr'; exact e
            · rw [← hst g' m' eg]; exact hf g' m' p' (by rw [if_neg eg]; exact hr')
        · simp only [SSys.setRun] at hi ⊢
          split at hi
          · cases hi
          · rename_i e
            have B := T.busy i m' p hi
            obtain ⟨evs', q', hnow', hpath', hsame'⟩ := B.sim
            have hal : Alike (· ∈ Spec.fids m') o o' := ⟨fun f hf => hf1 f ((T.apart i g m' m _ _ e hi h1).1 f hf), hf2, hf3⟩
            obtain ⟨q'', h3, h4⟩ := rel_path (alike_call user hal) hpath'
            rw [book_snoc, hst i m' e]
            exact { B with sim := ⟨evs', q'', hnow', h3, same_alike hsame' h4⟩ }
        · simp only [SSys.setRun] at hi hj
          split at hi
          · cases hi
          · split at hj
            · cases hj
            · rename_i e'
              rw [hst j m2 e']
              exact T.apart i j m1 m2 p1 p2 hij hi hj
    · -- an operation in memory
      have B := T.busy g m _ h1
      obtain ⟨x, hx, hfr⟩ := B.obeys
      cases hx with
      | op hm hk =>
        have hst : ∀ i m', changes i m' (ls ++ [.op g c]) rest = changes i m' ls (.op g c :: rest) := fun i m' => changes_step (by simp) (by simp)
        obtain ⟨k1, k2, k3, k4⟩ := act_leaves (A := changes g m ls (.op g c :: rest)) h2 hm B.fut (by cases m <;> simp [changes])
          (fun hc => B.wr (by
            cases c with
            | store p y v =>
              have hy := hm.2
              cases m <;> first | rfl | (simp [changes, stores, MOp.isStore, Spec.fids]; done) | exact absurd hy (by simp [Changes])
            | _ => cases hc))
        have tabg : ∀ f ∈ Spec.fids m, ∀ p, mem.files f = some p → O g p := fun f hf p hp =>
          tab_op (T := fun f p => f ∈ Spec.fids m → O g p) h2 (by rintro f p rfl _; exact hm.2.1) (fun f p hp hf => B.tab f hf p hp) f p hp hf
        have tabXg : ∀ f ∈ changes g m ls (.op g c :: rest), ∀ p, mem.files f = some p → X g p := fun f hf p hp =>
          tab_op (T := fun f p => f ∈ changes g m ls (.op g c :: rest) → X g p) h2 (by rintro f p rfl _; exact hfr p hm.2.2.1) (fun f p hp hf => B.tabX f hf p hp) f p hp hf
        have futX : ∀ n, mem.next g ≤ n → X g (g, n) := fun n hn => B.fut n (Nat.le_trans (k4 g) hn)
        have futg : ∀ n, mem.next g ≤ n → O g (g, n) := fun n hn => B.sub _ (futX n hn)
        have run' : ∀ {i m' p'}, i ≠ g → ({ s with mem := mem }.setRun g (some (m, k a))).run i = some (m', p') → s.run i = some (m', p') := by
          intro i m' p' e hi
          simp only [SSys.setRun, if_neg e] at hi
          exact hi
        refine ⟨o, O, X, ?_, T.root, T.io, fun f hf => ?_, fun i m' p hi => ?_, fun i j m1 m2 p1 p2 hij hi hj => ?_⟩
        · unfold serial; rw [book_snoc]; exact T.alone
        · simp only [hst] at hf
          have hfm : f ∉ changes g m ls (.op g c :: rest) := hf g m (k a) (by simp [SSys.setRun])
          have := T.idle f fun g' m' p' hr' => by
            by_cases eg : g' = g
            · subst eg; rw [h1] at hr'; cases hr'; exact hfm
            · exact hf g' m' p' (by simp only [SSys.setRun, if_neg eg]; exact hr')
          rw [this]
          simp only [SSys.setRun]
          rw [k1 f hfm]
          cases hp : s.mem.files f with
          | none => rfl
          | some p =>
            have : ¬ X g p := fun hO => hfm (B.onlyX p hO f hp)
            simp [k2 p this]
        · rw [book_snoc, hst]
          by_cases e : i = g
          · subst e
            simp only [SSys.setRun, if_true] at hi ⊢
            cases hi
            have hget : c.Gets (O i) a := gets_op (T := fun f p => f ∈ Spec.fids m → O i p) h2 hm (fun f e => B.sub _ (B.fut _ (Nat.le_refl _)))
              (fun f p h1 h2 => h1 h2) fun f p hp hf => B.tab f hf p hp
            obtain ⟨evs, q, hnow, hpath, hsame⟩ := B.sim
            refine ⟨⟨evs, q, hnow, hpath, ?_⟩, ⟨_, hk a hget, fun q hq => ?_⟩, B.sub, B.wr, tabg, tabXg, futX, fun p hO f hp => ?_, fun p hO f hp => ?_,
              fun p hO => ?_⟩
            · obtain ⟨ha, hn⟩ := act_plain (O := O i) (V := (· ∈ Spec.fids m)) h2
              refine same_near (alone_near (hk a hget) hn tabg futg) ?_
              simp only [MProg.alone] at hsame
              rw [← ha] at hsame
              exact hsame
            · cases c with
              | alloc fl =>
                cases h2
                simp only [Knows.next, Option.some.injEq] at hq
                subst hq
                exact B.fut _ (Nat.le_refl _)
              | lock => simp [Knows.next] at hq
              | unlock => simp [Knows.next] at hq
              | assign _ _ => simp [Knows.next] at hq
              | _ => exact hfr q hq
            · apply Classical.byContradiction
              intro hf
              exact hf (B.only p hO f ((k1 f fun h => hf (changes_fids h)).symm.trans hp))
            · apply Classical.byContradiction
              intro hf
              exact hf (B.onlyX p hO f ((k1 f hf).symm.trans hp))
            · exact (B.old p hO).imp_right fun h => Nat.lt_of_lt_of_le h (k4 _)
          · have hi' := run' e hi
            have B' := T.busy i m' p hi'
            have A := T.apart i g m' m _ _ e hi' h1
            have hn : Near i (O i) (· ∈ Spec.fids m') mem s.mem := ⟨fun f hf => k1 f (A.1 f hf), fun p hp => k2 p (A.2 p hp),
              fun p _ hl => Nat.lt_of_lt_of_le hl (k4 _), k3 i e⟩
            obtain ⟨evs, q, hnow, hpath, hsame⟩ := B'.sim
            obtain ⟨x', hx', hfr'⟩ := B'.obeys
            have tab' : ∀ f ∈ Spec.fids m', ∀ p, mem.files f = some p → O i p := fun f hf p hp => B'.tab f hf p ((hn.files f hf).symm.trans hp)
            have fut' : ∀ n, mem.next i ≤ n → X i (i, n) := fun n hl => B'.fut n (by rw [← hn.mine]; exact hl)
            have new : ∀ q, O i q → ∀ f, mem.files f = some q → s.mem.files f = some q := by
              intro q hO f hq
              by_cases hf : f ∈ changes g m ls (.op g c :: rest)
              · exact absurd (tabXg f hf q hq) (A.2 q hO)
              · exact (k1 f hf).symm.trans hq
            exact ⟨⟨evs, q, hnow, hpath, same_near (alone_near hx' hn tab' fun n hl => B'.sub _ (fut' n hl)) hsame⟩, ⟨x', hx', hfr'⟩, B'.sub, B'.wr, tab',
              fun f hf p hp => B'.tabX f hf p ((hn.files f (changes_fids hf)).symm.trans hp), fut',
              fun q hO f hq => B'.only q hO f (new q hO f hq), fun q hO f hq => B'.onlyX q hO f (new q (B'.sub q hO) f hq),
              fun q hO => (B'.old q hO).imp_right fun h => Nat.lt_of_lt_of_le h (k4 _)⟩
        · rw [hst]
          by_cases e : i = g
          · subst e
            simp only [SSys.setRun, if_true] at hi
            cases hi
            exact T.apart i j m m2 _ p2 hij h1 (run' (Ne.symm hij) hj)
          · by_cases e' : j = g
            · subst e'
              simp only [SSys.setRun, if_true] at hj
              cases hj
              exact T.apart i j m1 m p1 _ hij (run' e hi) h1
            · exact T.apart i j m1 m2 p1 p2 hij (run' e hi) (run' e' hj)
    · -- a call of the operating system
      have B := T.busy g m _ h1
      have hst : ∀ i m' e, changes i m' (ls ++ [.call g e]) rest = changes i m' ls (.call g e :: rest) := fun i m' e => changes_step (by simp) (by simp)
      refine ⟨o, O, X, ?_, T.root, T.io, fun f hf => ?_, fun i m' p hi => ?_, fun i j m1 m2 p1 p2 hij hi hj => ?_⟩
      · unfold serial; rw [book_snoc]; exact T.alone
      · simp only [hst] at hf
        refine T.idle f fun g' m' p' hr' => ?_
        by_cases eg : g' = g
        · subst eg; rw [h1] at hr'; cases hr'
          exact hf g' m _ (by simp [SSys.setRun]; rfl)
        · exact hf g' m' p' (by simp only [SSys.setRun, if_neg eg]; exact hr')
      · rw [book_snoc, hst]
        simp only [SSys.setRun] at hi ⊢
        by_cases e : i = g
        · subst e
          simp only [if_true] at hi
          cases hi
          obtain ⟨evs, q, hnow, hpath, hsame⟩ := B.sim
          obtain ⟨x, hx, hfr⟩ := B.obeys
          cases hsame with
          | call h3 =>
            cases hx with
            | host _ hk =>
              exact { B with
                sim := ⟨evs ++ [⟨c, _⟩], _, by simp [Book.add, Book.set, hnow], hpath.snoc _, h3 _⟩
                obeys := ⟨x, hk _, hfr⟩ }
        · simp only [if_neg e] at hi
          simp only [Book.add, Book.set, if_neg e]
          exact T.busy i m' p hi
      · have hrun : ∀ {i m' p'}, (({ s with world := (host.exec c s.world).1 }.setRun g (some (m, k (host.exec c s.world).2))).run i = some (m', p')) →
            ∃ p'', s.run i = some (m', p'') := by
          intro i m' p' hx
          simp only [SSys.setRun] at hx
          split at hx
          · rename_i e; rw [e]; cases hx; exact ⟨_, h1⟩
          · exact ⟨p', hx⟩
        obtain ⟨p1', hi'⟩ := hrun hi
        obtain ⟨p2', hj'⟩ := hrun hj
        rw [hst]
        exact T.apart i j m1 m2 _ _ hij hi' hj'
    · -- another process
      have hst : ∀ i m', changes i m' (ls ++ [.other w]) rest = changes i m' ls (.other w :: rest) := fun i m' => changes_step (by simp) (by simp)
      refine ⟨o, O, X, ?_, T.root, T.io, fun f hf => T.idle f (by simpa only [hst] using hf), fun i m' p hi => ?_, by simpa only [hst] using T.apart⟩
      · unfold serial; rw [book_snoc]; exact T.alone
      · rw [book_snoc, hst]; exact T.busy i m' p hi

/-! ### The theorems -/

/-- If of calls that overlap none changes a fid that another one names, then the calls have the results that they have one after the other, in the order in
which they finish, on a `FileServer` for one goroutine alone, given the same answers of the operating system; and the fids that no
call is changing are as that one has them. -/
theorem C125_serial {ls : List (SLabel ω H)} {s : SSys ω H} (h : SRun user rootPath iounit host w0 ls s) (hsep : Separate ls) :
    ∃ o, Alone user rootPath iounit (serial ls) o ∧
      ∀ f, (∀ g m, inCall g ls = some m → f ∉ alters m) → o.files f = (s.mem.files f).map s.mem.heap := by
  obtain ⟨o, O, X, T⟩ := together h [] (by simpa using hsep)
  refine ⟨o, T.alone, fun f hf => T.idle f fun g m p hr hf' => hf g m ?_ (changes_alters hf')⟩
  rw [inCall_run h, hr]
  rfl

/-- In the middle of a call: it has made the calls of the operating system that it makes after the finished ones, and if it panics
now, so it does then. -/
theorem C125_panics {ls : List (SLabel ω H)} {s : SSys ω H} (h : SRun user rootPath iounit host w0 ls s) (hsep : Separate ls)
    {g : Nat} {m : TMsg} {p : MMet H RMsg} (hr : s.run g = some (m, p)) :
    ∃ o evs, Alone user rootPath iounit (serial ls) o ∧ (book ls).now g = .begin m :: evs.map .call ∧
      (p = .panic → Spec.call (ufs (scripted H) user) m (o.into ⟨evs, []⟩) = .panic) := by
  obtain ⟨o, O, X, T⟩ := together h [] (by simpa using hsep)
  obtain ⟨evs, q, h1, h2, h3⟩ := (T.busy g m p hr).sim
  refine ⟨o, evs, T.alone, h1, ?_⟩
  rintro rfl
  cases h3
  have : (pcall user m o).run (scripted H) ⟨evs, []⟩ = none := h2.replay_panic rfl []
  rw [run_call]
  exact congrArg toRes this

/-- the program does not store into a structure, if the QIDs that it finds are not those of directories -/
def NoStore {α : Type} : MProg H α → Prop
  | .ret _ => True
  | .panic => True
  | .host _ k => ∀ a, NoStore (k a)
  | .op (.load _ .qid) k => ∀ q : QID, q.Typ &&& QTDIR = 0 → NoStore (k q)
  | .op c k => c.isStore = false ∧ ∀ a, NoStore (k a)

/-- A read of a file that is not a directory does not store into a structure, so it changes no fid for `Separate`. -/
theorem C125_plain_read (user : GoString) (fid : FID) (off : Offset) (c : Count) : NoStore (mread user fid off c : MMet H _) := by
  refine ⟨rfl, fun _ => ⟨rfl, fun r => ⟨rfl, fun _ => ?_⟩⟩⟩
  cases r with
  | none => trivial
  | some p =>
    refine ⟨rfl, fun h => ?_⟩
    cases h with
    | none => trivial
    | some h =>
      intro q hq
      show NoStore (mreadAs user p off c q)
      unfold mreadAs
      rw [if_neg (fun h => h hq)]
      split
      · trivial
      · refine ⟨rfl, fun h => ?_⟩
        cases h with
        | none => trivial
        | some h => rintro ⟨d, e⟩; cases e <;> trivial

/-! ### Examples -/

/-- a read of a directory does store -/
example (p : Ptr) : ∃ k, (mreadAs [103] p 0 8 { Typ := QTDIR } : MMet Nat _) = .op (.store p .oflow []) k := ⟨_, rfl⟩

theorem inCall_begun {g : Nat} {ls : List (SLabel ω H)} {m : TMsg} (h : inCall g ls = some m) : SLabel.begin g m ∈ ls := by
  have gen : ∀ (ls : List (SLabel ω H)) (acc : Option TMsg), ls.foldl (fun acc l => match l with
      | .begin g' m => if g' = g then some m else acc
      | .done g' _ => if g' = g then none else acc
      | _ => acc) acc = some m → acc = some m ∨ SLabel.begin g m ∈ ls := by
    intro ls
    induction ls with
    | nil => exact fun acc h => .inl h
    | cons l ls ih =>
      intro acc h
      rcases ih _ h with h1 | h1
      · cases l with
        | begin g' m' =>
          dsimp only at h1
          split at h1
          · rename_i e; subst e; cases h1; exact .inr (List.mem_cons_self ..)
          · exact .inl h1
        | done g' r =>
          dsimp only at h1
          split at h1
          · cases h1
          · exact .inl h1
        | _ => exact .inl h1
      · exact .inr (List.mem_cons_of_mem _ h1)
  rcases gen ls none h with h | h
  · cases h
  · exact h

/-- a check for `Separate`, for goroutines below `n` -/
def separateBy (n : Nat) (ls : List (SLabel ω H)) : Bool :=
  (ls.all fun l => match l with | .begin g _ => g < n | _ => true) &&
  (List.range ls.length).all fun i => match ls[i]? with
    | some (.begin g m) => (List.range n).all fun g' => match inCall g' (ls.take i) with
      | some m' => ((Spec.fids m).all fun f => !(changes g' m' (ls.take i) (ls.drop i)).contains f) &&
        (changes g m (ls.take (i + 1)) (ls.drop (i + 1))).all fun f => !(Spec.fids m').contains f
      | none => true
    | _ => true

theorem separateBy_separate {n : Nat} {ls : List (SLabel ω H)} (h : separateBy n ls = true) : Separate ls := by
  rintro ls1 ls2 g m rfl g' m' hin
  simp only [separateBy, Bool.and_eq_true, List.all_eq_true, List.mem_range] at h
  have h1 := h.1 _ (List.mem_append_left _ (inCall_begun hin))
  have h2 := h.2 ls1.length (by simp)
  have ht : (ls1 ++ SLabel.begin g m :: ls2).take (ls1.length + 1) = ls1 ++ [.begin g m] := by
    simp [List.take_append, List.take_of_length_le (Nat.le_succ ls1.length)]
  rw [ht] at h2
  simp at h1 h2
  have h3 := h2 g' h1
  rw [hin] at h3
  simp at h3
  exact h3

end

open Mem

/-- Goroutine 0 attaches and walks; goroutine 1 opens the fid that goroutine 0 has walked to, while goroutine 0 is in a walk to another one;
then goroutine 0 reads from what goroutine 1 has opened, while goroutine 1 attaches; and goroutine 1 clunks it. -/
def handover : List (Choice World) :=
  whole 0 (attachTo 0) ++ whole 0 (.walk { SFID := 0, NewFID := 1, Paths := [[102]] }) ++
  [.begin 0 (.walk { SFID := 0, NewFID := 2, Paths := [[102]] })] ++ go 0 3 ++ [.begin 1 (.open_ { OFID := 1 })] ++ go 1 4 ++ go 0 40 ++ go 1 40 ++
  [.begin 1 (attachTo 5)] ++ go 1 2 ++ whole 0 (.read { OFID := 1, Len := 3 }) ++ go 1 40 ++ whole 1 (.clunk { OFID := 1 })

/-- the hypotheses of `C125_serial`; no goroutine has fids of its own here -/
example : ∃ ls s, SRun [103] [47, 120] 8192 host world0 ls s ∧ Separate ls ∧ (s.run 0).isNone ∧ (s.run 1).isNone ∧
    outcomes (serial ls) = [some [], some [], some [], some [], some [1, 2, 3], some [], some []] ∧
    s.mem.files 1 = none ∧ s.mem.files 2 = some (0, 2) ∧ s.mem.files 5 = some (1, 0) :=
  ⟨_, _, shared_run handover, separateBy_separate (n := 2) (by decide +kernel), by decide +kernel⟩

/-- The two goroutines walk from the same fid to different ones at the same time, and goroutine 1 looks at that fid while goroutine 0
walks from it again. -/
def fork : List (Choice World) :=
  whole 0 (attachTo 0) ++ [.begin 0 (.walk { SFID := 0, NewFID := 1, Paths := [[102]] })] ++ go 0 3 ++
  [.begin 1 (.walk { SFID := 0, NewFID := 2, Paths := [[102]] })] ++ go 1 5 ++ go 0 40 ++ go 1 40 ++
  [.begin 1 (.stat { OFID := 0 })] ++ go 1 3 ++ whole 0 (.walk { SFID := 0, NewFID := 3 }) ++ go 1 40

/-- the hypotheses of `C125_serial`, for calls that overlap and name a common fid -/
example : ∃ ls s, SRun [103] [47, 120] 8192 host world0 ls s ∧ Separate ls ∧ (s.run 0).isNone ∧ (s.run 1).isNone ∧
    (serial ls).length = 14 ∧ s.mem.files 1 = some (0, 1) ∧ s.mem.files 2 = some (1, 0) ∧ s.mem.files 3 = some (0, 2) ∧
    inCall 0 (ls.take 14) = some (.walk { SFID := 0, NewFID := 1, Paths := [[102]] }) ∧
    inCall 1 (ls.take 14) = some (.walk { SFID := 0, NewFID := 2, Paths := [[102]] }) :=
  ⟨_, _, shared_run fork, separateBy_separate (n := 2) (by decide +kernel), by decide +kernel⟩

/-- the methods that were called -/
def called (l : List (Seen Nat)) : List TMsg := l.filterMap fun x => match x with | .begin m => some m | _ => none

/-- Both goroutines write to the same open file at the same time. -/
def twoWrites : List (Choice World) :=
  whole 0 (attachTo 0) ++ whole 0 (.walk { SFID := 0, NewFID := 1, Paths := [[102]] }) ++ whole 0 (.open_ { OFID := 1, Omode := 1 }) ++
  [.begin 0 (.write { OFID := 1, Data := [7, 8] })] ++ go 0 4 ++ [.begin 1 (.write { OFID := 1, Off := 2, Data := [9] })] ++ go 1 40 ++ go 0 40 ++
  whole 1 (.read { OFID := 1, Len := 3 })

/-- the hypotheses of `C125_serial`, for writes that overlap; goroutine 1 finishes first -/
example : ∃ ls s, SRun [103] [47, 120] 8192 host world0 ls s ∧ Separate ls ∧ (s.run 0).isNone ∧ (s.run 1).isNone ∧
    outcomes (serial ls) = [some [], some [], some [], some [], some [], some [7, 8, 9]] ∧
    called (serial ls) = [attachTo 0, .walk { SFID := 0, NewFID := 1, Paths := [[102]] }, .open_ { OFID := 1, Omode := 1 },
      .write { OFID := 1, Off := 2, Data := [9] }, .write { OFID := 1, Data := [7, 8] }, .read { OFID := 1, Len := 3 }] :=
  ⟨_, _, shared_run twoWrites, separateBy_separate (n := 2) (by decide +kernel), by decide +kernel⟩

/-- Both goroutines read from the same open file at the same time; then goroutine 0 opens the directory. -/
def twoReads : List (Choice World) :=
  whole 0 (attachTo 0) ++ whole 0 (.walk { SFID := 0, NewFID := 1, Paths := [[102]] }) ++ whole 0 (.open_ { OFID := 1 }) ++
  [.begin 0 (.read { OFID := 1, Len := 3 })] ++ go 0 4 ++ [.begin 1 (.read { OFID := 1, Off := 1, Len := 2 })] ++ go 1 40 ++ go 0 40 ++
  whole 0 (.open_ { OFID := 0 })

/-- the hypotheses of `C125_serial`, for reads that overlap -/
example : ∃ ls s, SRun [103] [47, 120] 8192 host world0 ls s ∧ Separate ls ∧ (s.run 0).isNone ∧ (s.run 1).isNone ∧
    outcomes (serial ls) = [some [], some [], some [], some [2, 3], some [1, 2, 3], some []] :=
  ⟨_, _, shared_run twoReads, separateBy_separate (n := 2) (by decide +kernel), by decide +kernel⟩

/-- a check of a history: the call that it is in, the fids that attaches have set, and whether no walk has reached one of them -/
def check1 (x : Option TMsg × List FID × Bool) (e : Seen H) : Option TMsg × List FID × Bool :=
  match e with
  | .begin m => (some m, x.2)
  | .call _ => x
  | .done r =>
    match x.1, r with
    | some (.attach p), .ok _ => (none, p.SFID :: x.2.1, x.2.2)
    | some (.walk p), .ok (.walk q) =>
      (none, [], x.2.2 && !(p.NewFID != p.SFID && x.2.1.contains p.NewFID && decide (p.Paths.length ≤ q.QIDs.length)))
    | _, _ => (none, [], x.2.2)

theorem check_evs (x : Option TMsg × List FID × Bool) (evs : List (Ev H)) : (evs.map Seen.call).foldl check1 x = x := by
  induction evs with
  | nil => rfl
  | cons e evs ih => simpa [check1] using ih

/-- A history that one goroutine can have passes the check. -/
theorem check_alone {l : List (Seen H)} {o : Obj H} (h : Alone user rootPath iounit l o) :
    (l.foldl check1 (none, [], true)).2.2 = true ∧ ∀ f ∈ (l.foldl check1 (none, [], true)).2.1, (o.files f).isSome := by
  induction h with
  | nil => exact ⟨rfl, by simp⟩
  | @ok l o m evs s' r _ h _ ih =>
    rw [List.foldl_append, List.foldl_append]
    simp only [List.foldl_cons, List.foldl_nil]
    rw [check_evs]
    generalize l.foldl check1 (none, [], true) = x at ih
    have hf := C42_frame (host := scripted H) (user := user) (m := m) (s := o.into ⟨evs, []⟩) (s' := s') (by rw [h]; rfl)
    cases m with
    | attach p =>
      refine ⟨ih.1, fun f hf' => ?_⟩
      simp only [check1, List.mem_cons] at hf'
      by_cases e : f = p.SFID
      · subst e
        simp only [Spec.call] at h
        cases hq : (ufs (scripted H) user).Rattach p.SFID p.AFID p.Uname p.Aname (o.into ⟨evs, []⟩) with
        | ok s1 q =>
          rw [hq] at h
          cases h
          obtain ⟨f, _, h1, _⟩ := C38_attach_place (host := scripted H) (uname := p.Uname) hq
          simp [State.obj, h1]
        | err s1 e => rw [hq] at h; cases h
        | panic => rw [hq] at h; cases h
      · have := hf.1 f (by simpa [Spec.fids] using e)
        rcases hf' with h' | h'
        · exact absurd h' e
        · have h2 := ih.2 f h'
          simpa [State.obj, this, State.into] using h2
    | walk p =>
      cases r with
      | walk q =>
        refine ⟨?_, by simp [check1]⟩
        simp only [check1, ih.1, Bool.true_and, Bool.not_eq_true', Bool.and_eq_false_iff, decide_eq_false_iff_not]
        apply Classical.byContradiction
        intro hn
        simp only [not_or, Bool.not_eq_false, Classical.not_not, bne_iff_ne, List.contains_iff_mem] at hn
        obtain ⟨⟨hne, hu⟩, hl⟩ := hn
        obtain ⟨r', w, h1, _, _, h4⟩ := C45_no_steal (host := scripted H) (user := user) (fid := p.SFID) (names := p.Paths) (s := o.into ⟨evs, []⟩)
          hne (ih.2 p.NewFID hu)
        simp only [Spec.call, h1] at h
        cases r' with
        | ok s1 q1 =>
          cases h
          have := h4 q1 rfl
          exact absurd hl (Nat.not_le_of_lt this)
        | err s1 e => cases h
        | panic => cases h
      | _ => exact ⟨ih.1, by simp [check1]⟩
    | _ => exact ⟨ih.1, by simp [check1]⟩
  | @err l o m evs s' e _ h _ ih =>
    rw [List.foldl_append, List.foldl_append]
    simp only [List.foldl_cons, List.foldl_nil]
    rw [check_evs]
    generalize l.foldl check1 (none, [], true) = x at ih
    cases m <;> exact ⟨ih.1, by simp [check1]⟩

/-- `C125_serial` needs its hypothesis: an attach to fid 5 and a walk to fid 5 that overlap both succeed; one after the other, in the
order in which they finish, they do not, whatever the operating system answers. -/
theorem C125_overlap_counterexample : ∃ ls s, SRun [103] [47, 120] 8192 host world0 ls s ∧ (s.run 0).isNone ∧ (s.run 1).isNone ∧
    called (serial ls) = [attachTo 0, attachTo 5, .walk { SFID := 0, NewFID := 5, Paths := [[102]] }] ∧
    outcomes (serial ls) = [some [], some [], some []] ∧
    ¬ ∃ o, Alone [103] [47, 120] 8192 (serial ls) o := by
  refine ⟨_, _, shared_run (stolen ++ go 0 40), by decide +kernel, by decide +kernel, by decide +kernel, by decide +kernel, ?_⟩
  rintro ⟨o, h⟩
  have h1 := (check_alone h).1
  have h2 : ((serial (shared (stolen ++ go 0 40)).1).foldl check1 (none, [], true)).2.2 = false := by decide +kernel
  rw [h1] at h2
  cases h2

/-- walks that overlap and keep to the condition: a history that one goroutine can have -/
example : ∃ ls s o, SRun [103] [47, 120] 8192 host world0 ls s ∧ Separate ls ∧ (serial ls).length = 14 ∧
    Alone [103] [47, 120] 8192 (serial ls) o := by
  obtain ⟨o, h, _⟩ := C125_serial (shared_run fork) (separateBy_separate (n := 2) (by decide +kernel))
  exact ⟨_, _, o, shared_run fork, separateBy_separate (n := 2) (by decide +kernel), by decide +kernel, h⟩

/-- the hypotheses of `C125_panics` -/
example : ∃ ls s, SRun [103] [47, 120] 8192 host world0 ls s ∧ Separate ls ∧
    ((s.run 0).map fun r => match r.2 with | .panic => true | _ => false) = some true :=
  ⟨_, _, shared_run (whole 1 (attachTo 5) ++ whole 1 (.open_ { OFID := 5 }) ++ whole 1 (.walk { SFID := 5, NewFID := 6, Paths := [[102]] }) ++
    whole 1 (.open_ { OFID := 6 }) ++ whole 0 (.read { OFID := 6, Len := -1 })),
    separateBy_separate (n := 2) (by decide +kernel), by decide +kernel⟩

end Ninep.Ufs.Shared
