import Verif.Lemmas.SharedUse
import Verif.Ufs.Conns
import Verif.Lemmas.Threads
import Verif.Ufs.Mem
/-
What goroutines can rely on that share one `FileServer` (Ufs/Shared.lean).
-/

namespace Ninep.Ufs.Shared
open Spec

section
variable {ω H : Type} {user rootPath : GoString} {iounit : MaxSize} {host : Host ω H} {w0 : ω}

/-! ### The mutex -/

/-- The invariant of an execution: goroutine `g` may use the fids `use g m` and follow the pointers `own g m` in a call of `m`, the
entries of the table satisfy `T`, and the fids `free` are not attached. -/
structure Good (use : Nat → TMsg → FID → Prop) (own : Nat → TMsg → Ptr → Prop) (T : FID → Ptr → Prop) (free : FID → Prop)
    (s : SSys ω H) : Prop where
  tab : ∀ f p, s.mem.files f = some p → T f p
  idle : ∀ g, s.run g = none → s.mem.mu ≠ some g
  busy : ∀ g m p, s.run g = some (m, p) → ∃ x, Obeys (use g m) (own g m) m x p ∧ (x.held = true ↔ s.mem.mu = some g) ∧
    (∀ f b, x.seen = some (f, b) → x.held = true ∧ (free f → (s.mem.files f).isSome = b))

/-- what the steps of an execution say of the calls: goroutine `g` is in a call of … -/
def current (g : Nat) (ls : List (SLabel ω H)) : Option TMsg :=
  ls.foldl (fun acc l => match l with | .begin g' m => if g' = g then some m else acc | _ => acc) none

theorem current_snoc (g : Nat) (ls : List (SLabel ω H)) (l : SLabel ω H) : current g (ls ++ [l]) =
    match l with | .begin g' m => if g' = g then some m else current g ls | _ => current g ls := by
  simp only [current, List.foldl_append, List.foldl_cons, List.foldl_nil]

/-- the kinds of steps -/
theorem step_cases {s s' : SSys ω H} {l : SLabel ω H} {c : Choice ω} (h : s.step user rootPath iounit host c = some (s', l)) :
    (∃ g m, l = .begin g m ∧ s.run g = none ∧ s' = s.setRun g (some (m, mcall user rootPath iounit m))) ∨
    (∃ g m r, l = .done g r ∧ s.run g = some (m, .ret r) ∧ s' = s.setRun g none) ∨
    (∃ g m c k mem a, l = .op g c ∧ s.run g = some (m, .op c k) ∧ s.mem.act g c = some (mem, a) ∧
      s' = { s with mem := mem }.setRun g (some (m, k a))) ∨
    (∃ g m c k, l = .call g ⟨c, (host.exec c s.world).2⟩ ∧ s.run g = some (m, .host c k) ∧
      s' = { s with world := (host.exec c s.world).1 }.setRun g (some (m, k (host.exec c s.world).2))) ∨
    (∃ w, l = .other w ∧ s' = { s with world := w }) := by
  cases c with
  | begin g m =>
    simp only [SSys.step] at h
    cases hr : s.run g with
    | some x => rw [hr] at h; cases h
    | none => rw [hr] at h; cases h; exact .inl ⟨g, m, rfl, hr, rfl⟩
  | other w => cases h; exact .inr (.inr (.inr (.inr ⟨w, rfl, rfl⟩)))
  | step g =>
    simp only [SSys.step] at h
    cases hr : s.run g with
    | none => rw [hr] at h; cases h
    | some x =>
      obtain ⟨m, p⟩ := x
      rw [hr] at h
      cases p with
      | panic => cases h
      | ret r => cases h; exact .inr (.inl ⟨g, m, r, rfl, hr, rfl⟩)
      | host c k => cases h; exact .inr (.inr (.inr (.inl ⟨g, m, c, k, rfl, hr, rfl⟩)))
      | op c k =>
        dsimp only at h
        cases ha : s.mem.act g c with
        | none => rw [ha] at h; cases h
        | some y =>
          obtain ⟨mem, a⟩ := y
          rw [ha] at h
          cases h
          exact .inr (.inr (.inl ⟨g, m, c, k, mem, a, rfl, hr, ha, rfl⟩))

theorem running {ls : List (SLabel ω H)} {s : SSys ω H} (h : SRun user rootPath iounit host w0 ls s) {g : Nat} {m : TMsg}
    {p : MMet H RMsg} (hr : s.run g = some (m, p)) : current g ls = some m := by
  induction h generalizing p with
  | init => cases hr
  | @step ls s s' l c h hs ih =>
    rw [current_snoc]
    rcases step_cases hs with ⟨g', m', rfl, h1, rfl⟩ | ⟨g', m', r, rfl, h1, rfl⟩ | ⟨g', m', c', k, mem, a, rfl, h1, h2, rfl⟩ |
      ⟨g', m', c', k, rfl, h1, rfl⟩ | ⟨w, rfl, rfl⟩ <;> simp only [SSys.setRun] at hr ⊢
    · by_cases e : g = g'
      · subst e; rw [if_pos rfl] at hr ⊢; cases hr; rfl
      · rw [if_neg e] at hr; rw [if_neg (Ne.symm e)]; exact ih hr
    all_goals first
      | exact ih hr
      | (by_cases e : g = g'
         · subst e; rw [if_pos rfl] at hr; first | (cases hr; exact ih h1) | cases hr
         · rw [if_neg e] at hr; exact ih hr)

theorem begun {ls : List (SLabel ω H)} {g : Nat} {m : TMsg} (h : current g ls = some m) : SLabel.begin g m ∈ ls := by
  have gen : ∀ (ls : List (SLabel ω H)) (acc : Option TMsg),
      ls.foldl (fun acc l => match l with | .begin g' m => if g' = g then some m else acc | _ => acc) acc = some m →
      acc = some m ∨ SLabel.begin g m ∈ ls := by
    intro ls
    induction ls with
    | nil => exact fun acc h => .inl h
    | cons l ls ih =>
      intro acc h
      rcases ih _ h with h1 | h1
      · cases l with
        | begin g' m' =>
          dsimp only at h1
          split at h1
          · rename_i e; subst e; cases h1; exact .inr (List.mem_cons_self ..)
          · exact .inl h1
        | _ => exact .inl h1
      · exact .inr (List.mem_cons_of_mem _ h1)
  rcases gen ls none h with h | h
  · cases h
  · exact h

variable {use : Nat → TMsg → FID → Prop} {own : Nat → TMsg → Ptr → Prop} {T : FID → Ptr → Prop} {free : FID → Prop}

/-- an operation of another goroutine -/
theorem other_op {g g' : Nat} (hg : g' ≠ g) {m : TMsg} {c : MOp H} {s mem : SMem H} {a : c.Ans} {V : FID → Prop} {own' : Ptr → Prop} {x x' : Knows}
    (ha : s.act g c = some (mem, a)) (hm : c.May V own' m x) (hh : x.held = true ↔ s.mu = some g)
    (hatt : ∀ q, m = .attach q → ¬ free q.SFID)
    (hh' : x'.held = true ↔ s.mu = some g')
    (hs' : ∀ f b, x'.seen = some (f, b) → x'.held = true ∧ (free f → (s.files f).isSome = b)) :
    (x'.held = true ↔ mem.mu = some g') ∧
    (∀ f b, x'.seen = some (f, b) → x'.held = true ∧ (free f → (mem.files f).isSome = b)) := by
  cases c with
  | lock =>
    simp only [SMem.act] at ha
    split at ha
    · rename_i e
      cases ha
      rw [e] at hh'
      exact ⟨⟨fun h => absurd (hh'.1 h) (by simp), fun h => absurd (Option.some.inj h).symm hg⟩, hs'⟩
    · cases ha
  | unlock =>
    simp only [SMem.act] at ha
    split at ha
    · rename_i e
      cases ha
      rw [e] at hh'
      exact ⟨⟨fun h => absurd (Option.some.inj (hh'.1 h)).symm hg, fun h => by cases h⟩, hs'⟩
    · cases ha
  | setVersioned => cases ha; exact ⟨hh', hs'⟩
  | setRoot p => cases ha; exact ⟨hh', hs'⟩
  | lookup fid => cases ha; exact ⟨hh', hs'⟩
  | alloc f => cases ha; exact ⟨hh', hs'⟩
  | load p f => cases ha; exact ⟨hh', hs'⟩
  | store p f v => cases ha; exact ⟨hh', hs'⟩
  | assign fid p =>
    cases ha
    refine ⟨hh', fun f b hb => ⟨(hs' f b hb).1, fun hf => ?_⟩⟩
    have h1 := (hs' f b hb)
    rcases hm.2.2.2 with ⟨q, rfl, rfl⟩ | ⟨h2, _⟩
    · have : f ≠ q.SFID := fun e => hatt q rfl (e ▸ hf)
      simp only [if_neg this]
      exact h1.2 hf
    · have e1 := hh.1 h2
      have e2 := hh'.1 h1.1
      rw [e1] at e2
      exact absurd (Option.some.inj e2).symm hg
  | delete fid =>
    cases ha
    refine ⟨hh', fun f b hb => ?_⟩
    have h1 := (hs' f b hb)
    have e1 := hh.1 hm.2.1
    have e2 := hh'.1 h1.1
    rw [e1] at e2
    exact absurd (Option.some.inj e2).symm hg

/-- an operation of the goroutine itself -/
theorem own_op {g : Nat} {m : TMsg} {c : MOp H} {s mem : SMem H} {a : c.Ans} {V : FID → Prop} {own' : Ptr → Prop} {x : Knows}
    (ha : s.act g c = some (mem, a)) (hm : c.May V own' m x) (hh : x.held = true ↔ s.mu = some g)
    (hs : ∀ f b, x.seen = some (f, b) → x.held = true ∧ (free f → (s.files f).isSome = b)) :
    ((x.next c a).held = true ↔ mem.mu = some g) ∧
    (∀ f b, (x.next c a).seen = some (f, b) → (x.next c a).held = true ∧ (free f → (mem.files f).isSome = b)) := by
  cases c with
  | lock =>
    simp only [SMem.act] at ha
    split at ha
    · cases ha; exact ⟨by simp [Knows.next], by simp [Knows.next]⟩
    · cases ha
  | unlock =>
    simp only [SMem.act] at ha
    split at ha
    · cases ha; exact ⟨by simp [Knows.next], by simp [Knows.next]⟩
    · cases ha
  | setVersioned => cases ha; exact ⟨hh, hs⟩
  | setRoot p => cases ha; exact ⟨hh, hs⟩
  | alloc f => cases ha; exact ⟨hh, hs⟩
  | load p f => cases ha; exact ⟨hh, hs⟩
  | store p f v => cases ha; exact ⟨hh, hs⟩
  | lookup fid =>
    cases ha
    refine ⟨hh, fun f b hb => ⟨hm.2, fun _ => ?_⟩⟩
    simp only [Knows.next, Option.some.injEq, Prod.mk.injEq] at hb
    rw [← hb.1, ← hb.2]
  | assign fid p => cases ha; exact ⟨hh, by simp [Knows.next]⟩
  | delete fid => cases ha; exact ⟨hh, by simp [Knows.next]⟩

theorem tab_op {g : Nat} {c : MOp H} {s mem : SMem H} {a : c.Ans} (ha : s.act g c = some (mem, a))
    (hnew : ∀ f p, c = .assign f p → T f p) (ht : ∀ f p, s.files f = some p → T f p) : ∀ f p, mem.files f = some p → T f p := by
  cases c with
  | lock =>
    simp only [SMem.act] at ha
    split at ha
    · cases ha; exact ht
    · cases ha
  | unlock =>
    simp only [SMem.act] at ha
    split at ha
    · cases ha; exact ht
    · cases ha
  | setVersioned => cases ha; exact ht
  | setRoot p => cases ha; exact ht
  | alloc f => cases ha; exact ht
  | load p f => cases ha; exact ht
  | store p f v => cases ha; exact ht
  | lookup fid => cases ha; exact ht
  | assign fid p =>
    cases ha
    intro f q hq
    dsimp only at hq
    split at hq
    · rename_i e; subst e; cases hq; exact hnew _ _ rfl
    · exact ht f q hq
  | delete fid =>
    cases ha
    intro f q hq
    dsimp only at hq
    split at hq
    · cases hq
    · exact ht f q hq

theorem gets_op {g : Nat} {m : TMsg} {c : MOp H} {s mem : SMem H} {a : c.Ans} {x : Knows} {V : FID → Prop} {own' : Ptr → Prop}
    (ha : s.act g c = some (mem, a)) (hm : c.May V own' m x) (hnew : ∀ f, c = .alloc f → own' (g, s.next g))
    (hT : ∀ f p, T f p → V f → own' p) (ht : ∀ f p, s.files f = some p → T f p) : c.Gets own' a := by
  cases c with
  | lookup fid => cases ha; exact fun p hp => hT fid p (ht fid p hp) hm.1
  | alloc f => cases ha; exact hnew f rfl
  | _ => trivial

theorem good {L : List (SLabel ω H)} (hT : ∀ g m f p, T f p → use g m f → own g m p)
    (hassign : ∀ ls s g m f p k, SRun user rootPath iounit host w0 ls s → ls ++ [.op g (.assign f p)] <+: L →
      s.run g = some (m, .op (.assign f p) k) → use g m f → own g m p → T f p)
    (halloc : ∀ ls s g m fl k, SRun user rootPath iounit host w0 ls s → ls ++ [.op g (.alloc fl)] <+: L →
      s.run g = some (m, .op (.alloc fl) k) → own g m (g, s.mem.next g))
    (huse : ∀ g m, SLabel.begin g m ∈ L → ∀ f ∈ Spec.fids m, use g m f)
    (hatt : ∀ g q, SLabel.begin g (.attach q) ∈ L → ¬ free q.SFID)
    {ls : List (SLabel ω H)} {s : SSys ω H} (h : SRun user rootPath iounit host w0 ls s) (hL : ls <+: L) : Good use own T free s := by
  induction h with
  | init => exact ⟨by simp, by simp, by simp⟩
  | @step ls s s' l c h hs ih =>
    have hL' : ls <+: L := (List.prefix_append _ _).trans hL
    have G := ih hL'
    rcases step_cases hs with ⟨g, m, rfl, h1, rfl⟩ | ⟨g, m, r, rfl, h1, rfl⟩ | ⟨g, m, c, k, mem, a, rfl, h1, h2, rfl⟩ |
      ⟨g, m, c, k, rfl, h1, rfl⟩ | ⟨w, rfl, rfl⟩
    · refine ⟨G.tab, fun i hi => ?_, fun i m' p hi => ?_⟩ <;> simp only [SSys.setRun] at hi ⊢ <;> split at hi
      · cases hi
      · exact G.idle i hi
      · rename_i e
        subst e
        cases hi
        exact ⟨{}, obeys_call user rootPath iounit m (huse i m (hL.subset (by simp))), by simpa using G.idle i h1, by simp⟩
      · exact G.busy i m' p hi
    · obtain ⟨x, hx1, hx2, _⟩ := G.busy g m _ h1
      refine ⟨G.tab, fun i hi => ?_, fun i m' p hi => ?_⟩ <;> simp only [SSys.setRun] at hi ⊢ <;> split at hi
      · rename_i e
        subst e
        cases hx1 with
        | ret h0 => intro hmu; rw [hx2.2 hmu] at h0; cases h0
      · exact G.idle i hi
      · cases hi
      · exact G.busy i m' p hi
    · obtain ⟨x, hx1, hx2, hx3⟩ := G.busy g m _ h1
      cases hx1 with
      | op hm hk =>
        have hatt' : ∀ q, m = .attach q → ¬ free q.SFID := fun q e =>
          hatt g q (hL'.subset (begun (running h (e ▸ h1))))
        refine ⟨tab_op h2 (fun f p e => ?_) G.tab, fun i hi => ?_, fun i m' p hi => ?_⟩
        · subst e
          exact hassign ls s g m f p k h hL h1 hm.1 hm.2.1
        all_goals simp only [SSys.setRun] at hi ⊢
        all_goals split at hi
        · cases hi
        · rename_i e
          have hidle := G.idle i hi
          have := (other_op (free := free) (x' := {}) e h2 hm hx2 hatt' (by simpa using hidle) (by simp)).1
          simpa using this
        · rename_i e
          subst e
          cases hi
          refine ⟨x.next c a, hk a (gets_op h2 hm (fun f e => ?_) (hT i m) G.tab), own_op h2 hm hx2 hx3⟩
          subst e
          exact halloc ls s i m f k h hL h1
        · rename_i e
          obtain ⟨y, hy1, hy2, hy3⟩ := G.busy i m' p hi
          exact ⟨y, hy1, other_op e h2 hm hx2 hatt' hy2 hy3⟩
    · obtain ⟨x, hx1, hx2, hx3⟩ := G.busy g m _ h1
      refine ⟨G.tab, fun i hi => ?_, fun i m' p hi => ?_⟩ <;> simp only [SSys.setRun] at hi ⊢ <;> split at hi
      · cases hi
      · exact G.idle i hi
      · rename_i e
        subst e
        cases hi
        cases hx1 with
        | host _ hk => exact ⟨x, hk _, hx2, hx3⟩
      · exact G.busy i m' p hi
    · exact ⟨G.tab, G.idle, G.busy⟩

/-- every goroutine may use everything -/
theorem good_any {ls : List (SLabel ω H)} {s : SSys ω H} (h : SRun user rootPath iounit host w0 ls s) :
    Good (fun _ _ _ => True) (fun _ _ _ => True) (fun _ _ => True) (fun f => ∀ g q, SLabel.begin g (.attach q) ∈ ls → q.SFID ≠ f) s :=
  good (L := ls) (fun _ _ _ _ _ _ => trivial) (fun _ _ _ _ _ _ _ _ _ _ _ _ => trivial) (fun _ _ _ _ _ _ _ _ _ => trivial)
    (fun _ _ _ _ _ => trivial) (fun g q hm hf => hf g q hm rfl) h (List.prefix_refl _)

/-- A goroutine in the middle of a call can go on, unless it has panicked, or waits for the mutex; then it is another
goroutine that holds the mutex, and that one can go on: it has not panicked, it is in a call, and it does not wait for the mutex
itself. -/
theorem C122_no_deadlock {ls : List (SLabel ω H)} {s : SSys ω H} (h : SRun user rootPath iounit host w0 ls s) {g : Nat} {m : TMsg}
    {p : MMet H RMsg} (hr : s.run g = some (m, p)) :
    p = .panic ∨ (s.step user rootPath iounit host (.step g)).isSome ∨
    ∃ g', g' ≠ g ∧ s.mem.mu = some g' ∧ (s.step user rootPath iounit host (.step g')).isSome := by
  have G := good_any h
  have holder : ∀ g' m' (p' : MMet H RMsg), s.run g' = some (m', p') → s.mem.mu = some g' →
      (s.step user rootPath iounit host (.step g')).isSome := by
    intro g' m' p' hr' hmu
    obtain ⟨x, hx1, hx2, _⟩ := G.busy g' m' p' hr'
    have hheld := hx2.2 hmu
    simp only [SSys.step, hr']
    cases hx1 with
    | ret h0 => rfl
    | panic h0 => rw [h0] at hheld; cases hheld
    | host => rfl
    | @op _ c k hm _ =>
      cases c with
      | lock =>
        have : x.held = false := hm
        rw [this] at hheld
        cases hheld
      | unlock => simp [SMem.act, hmu]
      | _ => rfl
  obtain ⟨x, hx1, hx2, _⟩ := G.busy g m p hr
  cases hx1 with
  | panic _ => exact .inl rfl
  | ret _ => right; left; simp [SSys.step, hr]
  | host _ _ => right; left; simp [SSys.step, hr]
  | @op _ c k hm _ =>
    right
    cases c with
    | lock =>
      have hx : x.held = false := hm
      cases hmu : s.mem.mu with
      | none => left; simp [SSys.step, hr, SMem.act, hmu]
      | some g' =>
        right
        refine ⟨g', fun e => ?_, rfl, ?_⟩
        · subst e; rw [hx2.2 hmu] at hx; cases hx
        · cases hr' : s.run g' with
          | none => exact absurd hmu (G.idle g' hr')
          | some y => exact holder g' y.1 y.2 hr' hmu
    | unlock =>
      left
      have : s.mem.mu = some g := hx2.1 hm
      simp [SSys.step, hr, SMem.act, this]
    | _ => left; simp [SSys.step, hr, SMem.act]

/-- A goroutine has released the mutex when its call returns, and a panic finds it released. -/
theorem C122_released {ls : List (SLabel ω H)} {s : SSys ω H} (h : SRun user rootPath iounit host w0 ls s) {g : Nat}
    (hmu : s.mem.mu = some g) : ∃ m p, s.run g = some (m, p) ∧ p ≠ .panic ∧ ∀ r, p ≠ .ret r := by
  cases hr : s.run g with
  | none => exact absurd hmu ((good_any h).idle g hr)
  | some y =>
    obtain ⟨m, p⟩ := y
    obtain ⟨x, hx1, hx2, _⟩ := (good_any h).busy g m p hr
    refine ⟨m, p, rfl, ?_, ?_⟩
    · rintro rfl
      cases hx1 with
      | panic h0 => rw [hx2.2 hmu] at h0; cases h0
    · rintro r rfl
      cases hx1 with
      | ret h0 => rw [hx2.2 hmu] at h0; cases h0

/-- While a goroutine holds the mutex, it makes no call of the operating system but `Close`. -/
theorem C122_held_calls {ls : List (SLabel ω H)} {s s' : SSys ω H} (h : SRun user rootPath iounit host w0 ls s) {g : Nat} {c : Choice ω}
    {x : HCall H} {a : x.Ans} (hs : s.step user rootPath iounit host c = some (s', .call g ⟨x, a⟩)) (hmu : s.mem.mu = some g) :
    ∃ hd, x = .close hd := by
  rcases step_cases hs with ⟨_, _, h0, _⟩ | ⟨_, _, _, h0, _⟩ | ⟨_, _, _, _, _, _, h0, _⟩ | ⟨g', m, c', k, h0, h1, _⟩ | ⟨_, h0, _⟩ <;>
    cases h0
  obtain ⟨y, hy1, hy2, _⟩ := (good_any h).busy g m _ h1
  cases hy1 with
  | host hc _ => exact hc (hy2.2 hmu)

/-! ### The table -/

/-- A fid that no attach asks for: its entry in the table is set by a walk to it only, and only if it has none — or if the
walk starts from that same fid; and it is deleted by a clunk or a remove of it only, that finds it there. -/
theorem C122_table_partial {ls : List (SLabel ω H)} {s s' : SSys ω H} (h : SRun user rootPath iounit host w0 ls s) {c : Choice ω}
    {l : SLabel ω H} (hs : s.step user rootPath iounit host c = some (s', l)) (f : FID)
    (hf : ∀ g q, SLabel.begin g (.attach q) ∈ ls → q.SFID ≠ f) (hd : s'.mem.files f ≠ s.mem.files f) :
    ∃ g m p, s.run g = some (m, p) ∧
      ((∃ q, m = .walk q ∧ q.NewFID = f ∧ (s.mem.files f = none ∨ q.SFID = f) ∧ (s'.mem.files f).isSome) ∨
       (((∃ q, m = .clunk q ∧ q.OFID = f) ∨ ∃ q, m = .remove q ∧ q.OFID = f) ∧ (s.mem.files f).isSome ∧ s'.mem.files f = none)) := by
  have G := good_any h
  rcases step_cases hs with ⟨_, _, _, _, rfl⟩ | ⟨_, _, _, _, _, rfl⟩ | ⟨g, m, c, k, mem, a, rfl, h1, h2, rfl⟩ |
      ⟨_, _, _, _, _, _, rfl⟩ | ⟨_, _, rfl⟩
  · exact absurd rfl hd
  · exact absurd rfl hd
  · refine ⟨g, m, _, h1, ?_⟩
    obtain ⟨x, hx1, hx2, hx3⟩ := G.busy g m _ h1
    cases hx1 with
    | op hm _ =>
      simp only [SSys.setRun] at hd ⊢
      cases c with
      | lock =>
        simp only [SMem.act] at h2
        split at h2
        · cases h2; exact absurd rfl hd
        · cases h2
      | unlock =>
        simp only [SMem.act] at h2
        split at h2
        · cases h2; exact absurd rfl hd
        · cases h2
      | assign fid p =>
        cases h2
        dsimp only at hd ⊢
        by_cases e : f = fid
        · subst e
          rcases hm.2.2.2 with ⟨q, rfl, rfl⟩ | ⟨_, q, rfl, rfl, h3⟩
          · exact absurd rfl (hf g q (begun (running h h1)))
          · refine .inl ⟨q, rfl, rfl, ?_, by simp⟩
            rcases h3 with h3 | h3
            · exact .inr h3
            · have := (hx3 _ _ h3).2 hf
              exact .inl (by simpa using this)
        · rw [if_neg e] at hd
          exact absurd rfl hd
      | delete fid =>
        cases h2
        dsimp only at hd ⊢
        by_cases e : f = fid
        · subst e
          exact .inr ⟨hm.2.2.2, (hx3 _ _ hm.2.2.1).2 hf, by simp⟩
        · rw [if_neg e] at hd
          exact absurd rfl hd
      | _ => cases h2; exact absurd rfl hd
  · exact absurd rfl hd
  · exact absurd rfl hd

/-! ### Races -/

/-- what an access is to -/
inductive Place where
  /-- the map `e.files`: Go has accesses to different keys of one map conflict too -/
  | table
  | root
  | versioned
  /-- the field `x` of `*p` -/
  | field (p : Ptr) (x : Fld)
deriving DecidableEq

/-- The access that a step is: by whom, to what, and whether it writes.  The making of a structure is left out: no other goroutine
has the pointer then. -/
def SLabel.access : SLabel ω H → Option (Nat × Place × Bool)
  | .op g (.lookup _) => some (g, .table, false)
  | .op g (.assign _ _) => some (g, .table, true)
  | .op g (.delete _) => some (g, .table, true)
  | .op g (.setRoot _) => some (g, .root, true)
  | .op g .setVersioned => some (g, .versioned, true)
  | .op g (.load p x) => some (g, .field p x, false)
  | .op g (.store p x _) => some (g, .field p x, true)
  | _ => none

/-- the goroutine that makes a step -/
def SLabel.who : SLabel ω H → Option Nat
  | .begin g _ => some g
  | .op g _ => some g
  | .call g _ => some g
  | .done g _ => some g
  | .other _ => none

/-- what the Go memory model orders: the steps of a goroutine, and the release of the mutex before it is acquired again -/
inductive Before (ls : List (SLabel ω H)) : Nat → Nat → Prop
  | own {i j li lj g} : i < j → ls[i]? = some li → ls[j]? = some lj → li.who = some g → lj.who = some g → Before ls i j
  | mutex {i j g g'} : i < j → ls[i]? = some (.op g .unlock) → ls[j]? = some (.op g' .lock) → Before ls i j
  | trans {i j k} : Before ls i j → Before ls j k → Before ls i k

/-- two accesses of different goroutines to the same place, one of them a write, in no order -/
structure Race (ls : List (SLabel ω H)) (i j g g' : Nat) (x : Place) : Prop where
  lt : i < j
  ne : g ≠ g'
  acc : ∃ li lj b b', ls[i]? = some li ∧ ls[j]? = some lj ∧ li.access = some (g, x, b) ∧ lj.access = some (g', x, b') ∧
    (b = true ∨ b' = true)
  not : ¬ Before ls i j

/-- the execution up to a step, and that step -/
theorem upTo {ls : List (SLabel ω H)} {s : SSys ω H} (h : SRun user rootPath iounit host w0 ls s) {i : Nat} {l : SLabel ω H}
    (hi : ls[i]? = some l) : ∃ t t' c, SRun user rootPath iounit host w0 (ls.take i) t ∧ t.step user rootPath iounit host c = some (t', l) := by
  induction h with
  | init => simp at hi
  | @step ls s s' l' c h hs ih =>
    by_cases e : i < ls.length
    · rw [List.getElem?_append_left e] at hi
      obtain ⟨t, t', c', h1, h2⟩ := ih hi
      exact ⟨t, t', c', by rw [List.take_append_of_le_length (Nat.le_of_lt e)]; exact h1, h2⟩
    · have e' : i = ls.length := by
        have := (List.getElem?_eq_some_iff.1 hi).1
        simp at this
        omega
      subst e'
      simp at hi
      subst hi
      exact ⟨s, s', c, by simpa using h, hs⟩

/-- what a step does to the mutex -/
theorem mu_step {s s' : SSys ω H} {l : SLabel ω H} {c : Choice ω} (h : s.step user rootPath iounit host c = some (s', l)) :
    (s'.mem.mu = s.mem.mu ∧ (∀ g, l ≠ .op g .lock) ∧ ∀ g, l ≠ .op g .unlock) ∨
    (∃ g, l = .op g .lock ∧ s.mem.mu = none ∧ s'.mem.mu = some g) ∨
    (∃ g, l = .op g .unlock ∧ s.mem.mu = some g ∧ s'.mem.mu = none) := by
  rcases step_cases h with ⟨_, _, rfl, _, rfl⟩ | ⟨_, _, _, rfl, _, rfl⟩ | ⟨g, m, c, k, mem, a, rfl, h1, h2, rfl⟩ |
      ⟨_, _, _, _, rfl, _, rfl⟩ | ⟨_, rfl, rfl⟩
  · exact .inl ⟨rfl, by simp, by simp⟩
  · exact .inl ⟨rfl, by simp, by simp⟩
  · cases c with
    | lock =>
      simp only [SMem.act] at h2
      split at h2
      · cases h2; exact .inr (.inl ⟨g, rfl, by assumption, rfl⟩)
      · cases h2
    | unlock =>
      simp only [SMem.act] at h2
      split at h2
      · cases h2; exact .inr (.inr ⟨g, rfl, by assumption, rfl⟩)
      · cases h2
    | _ => cases h2; exact .inl ⟨rfl, by simp, by simp⟩
  · exact .inl ⟨rfl, by simp, by simp⟩
  · exact .inl ⟨rfl, by simp, by simp⟩

/-- an access to the table is made with the mutex held, unless in an attach -/
theorem table_held {ls : List (SLabel ω H)} {s s' : SSys ω H} (h : SRun user rootPath iounit host w0 ls s) {c : Choice ω} {l : SLabel ω H}
    (hs : s.step user rootPath iounit host c = some (s', l)) {g : Nat} {b : Bool} (ha : l.access = some (g, .table, b))
    (hn : ∀ q, current g ls ≠ some (.attach q)) : s.mem.mu = some g ∧ s'.mem.mu = some g := by
  rcases step_cases hs with ⟨_, _, rfl, _, rfl⟩ | ⟨_, _, _, rfl, _, rfl⟩ | ⟨g', m, c, k, mem, a, rfl, h1, h2, rfl⟩ |
      ⟨_, _, _, _, rfl, _, rfl⟩ | ⟨_, rfl, rfl⟩
  · cases ha
  · cases ha
  · obtain ⟨x, hx1, hx2, _⟩ := (good_any h).busy g' m _ h1
    cases hx1 with
    | op hm _ =>
      cases c with
      | lookup fid => cases ha; cases h2; exact ⟨hx2.1 hm.2, hx2.1 hm.2⟩
      | delete fid => cases ha; cases h2; exact ⟨hx2.1 hm.2.1, hx2.1 hm.2.1⟩
      | assign fid p =>
        cases ha
        cases h2
        rcases hm.2.2.2 with ⟨q, rfl, _⟩ | ⟨h3, _⟩
        · exact absurd (running h h1) (hn q)
        · exact ⟨hx2.1 h3, hx2.1 h3⟩
      | _ => cases ha
  · cases ha
  · cases ha

/-- After an access with the mutex held: the mutex is held still, or it was released; and who has it now, has acquired it since. -/
theorem handed_on {ls : List (SLabel ω H)} {s : SSys ω H} (h : SRun user rootPath iounit host w0 ls s) {i g : Nat} {l : SLabel ω H} {b : Bool}
    (hi : ls[i]? = some l) (ha : l.access = some (g, .table, b)) (hn : ∀ q, current g (ls.take i) ≠ some (.attach q)) :
    s.mem.mu = some g ∨ ∃ k, i < k ∧ ls[k]? = some (.op g .unlock) ∧
      ∀ g', s.mem.mu = some g' → ∃ n, k < n ∧ ls[n]? = some (.op g' .lock) := by
  induction h with
  | init => simp at hi
  | @step ls s s' l' c h hs ih =>
    by_cases e : i < ls.length
    · rw [List.getElem?_append_left e] at hi
      rw [List.take_append_of_le_length (Nat.le_of_lt e)] at hn
      have lift : ∀ {k : Nat} {x : SLabel ω H}, ls[k]? = some x → (ls ++ [l'])[k]? = some x := by
        intro k x hk
        rw [List.getElem?_append_left (List.getElem?_eq_some_iff.1 hk).1]
        exact hk
      have hlast : (ls ++ [l'])[ls.length]? = some l' := by simp
      rcases ih hi hn with h1 | ⟨k, hk1, hk2, hk3⟩
      · rcases mu_step hs with ⟨h2, _⟩ | ⟨g', _, h2, _⟩ | ⟨g', rfl, h2, h3⟩
        · exact .inl (by rw [h2, h1])
        · rw [h1] at h2; cases h2
        · rw [h1] at h2
          cases h2
          exact .inr ⟨ls.length, e, hlast, fun g' hg' => by rw [h3] at hg'; cases hg'⟩
      · refine .inr ⟨k, hk1, lift hk2, fun g' hg' => ?_⟩
        rcases mu_step hs with ⟨h2, _⟩ | ⟨g'', rfl, h2, h3⟩ | ⟨g'', rfl, h2, h3⟩
        · rw [h2] at hg'
          obtain ⟨n, hn1, hn2⟩ := hk3 g' hg'
          exact ⟨n, hn1, lift hn2⟩
        · rw [h3] at hg'
          cases hg'
          exact ⟨ls.length, (List.getElem?_eq_some_iff.1 hk2).1, hlast⟩
        · rw [h3] at hg'; cases hg'
    · have e' : i = ls.length := by
        have := (List.getElem?_eq_some_iff.1 hi).1
        simp at this
        omega
      subst e'
      simp at hi
      subst hi
      left
      refine (table_held h hs ha ?_).2
      simpa using hn

theorem access_who {l : SLabel ω H} {g : Nat} {x : Place} {b : Bool} (h : l.access = some (g, x, b)) : l.who = some g := by
  cases l with
  | op g' c => cases c <;> first | (cases h; rfl) | cases h
  | _ => cases h

/-- Accesses to the table of two goroutines are ordered, unless one is made in an attach. -/
theorem C122_table_guarded {ls : List (SLabel ω H)} {s : SSys ω H} (h : SRun user rootPath iounit host w0 ls s) {i j g g' : Nat}
    (hr : Race ls i j g g' .table) :
    (∃ q, current g (ls.take i) = some (.attach q)) ∨ ∃ q, current g' (ls.take j) = some (.attach q) := by
  apply Classical.byContradiction
  intro hn
  simp only [not_or, not_exists] at hn
  obtain ⟨li, lj, b, b', hi, hj, ai, aj, _⟩ := hr.acc
  obtain ⟨t, t', c, ht, hst⟩ := upTo h hj
  have hmu := (table_held ht hst aj hn.2).1
  have hti : (ls.take j)[i]? = some li := by rw [List.getElem?_take, if_pos hr.lt]; exact hi
  have htake : (ls.take j).take i = ls.take i := by rw [List.take_take, Nat.min_eq_left (Nat.le_of_lt hr.lt)]
  rcases handed_on ht hti ai (by rw [htake]; exact hn.1) with h1 | ⟨k, hk1, hk2, hk3⟩
  · rw [hmu] at h1
    exact hr.ne (Option.some.inj h1).symm
  · obtain ⟨n, hn1, hn2⟩ := hk3 g' hmu
    have drop : ∀ {k : Nat} {x : SLabel ω H}, (ls.take j)[k]? = some x → k < j ∧ ls[k]? = some x := by
      intro k x hk
      rw [List.getElem?_take] at hk
      split at hk
      · exact ⟨by assumption, hk⟩
      · cases hk
    have hk2' := (drop hk2).2
    obtain ⟨hnj, hn2'⟩ := drop hn2
    exact hr.not (.trans (.trans (.own hk1 hi hk2' (access_who ai) rfl) (.mutex hn1 hk2' hn2'))
      (.own hnj hn2' hj rfl (access_who aj)))

/-- `l` makes a structure in goroutine `g` -/
def SLabel.makes (g : Nat) : SLabel ω H → Bool
  | .op g' (.alloc _) => g' == g
  | _ => false

/-- the structure `p` was made in a call of `m` -/
def Made (ls : List (SLabel ω H)) (p : Ptr) (m : TMsg) : Prop :=
  ∃ i l, ls[i]? = some l ∧ l.makes p.1 = true ∧ (ls.take i).countP (SLabel.makes p.1) = p.2 ∧ current p.1 (ls.take i) = some m

theorem made_mono {ls ls' : List (SLabel ω H)} {p : Ptr} {m : TMsg} (h : Made ls p m) (hp : ls <+: ls') : Made ls' p m := by
  obtain ⟨t, rfl⟩ := hp
  obtain ⟨i, l, h1, h2, h3, h4⟩ := h
  have hi := (List.getElem?_eq_some_iff.1 h1).1
  refine ⟨i, l, by rw [List.getElem?_append_left hi]; exact h1, h2, ?_, ?_⟩ <;>
    rw [List.take_append_of_le_length (Nat.le_of_lt hi)] <;> assumption

theorem made_lt {ls : List (SLabel ω H)} {g : Nat} {i j : Nat} {l : SLabel ω H} (h : ls[i]? = some l) (hm : l.makes g = true) (hij : i < j) :
    (ls.take i).countP (SLabel.makes g) < (ls.take j).countP (SLabel.makes g) := by
  have h1 : (ls.take (i + 1)).countP (SLabel.makes g) = (ls.take i).countP (SLabel.makes g) + 1 := by
    rw [List.take_add_one, h, List.countP_append]
    simp [hm]
  have h2 : (ls.take (i + 1)).Sublist (ls.take j) := (List.take_prefix_take_left (by omega)).sublist
  have := h2.countP_le (p := SLabel.makes g)
  omega

theorem made_unique {ls : List (SLabel ω H)} {p : Ptr} {m m' : TMsg} (h : Made ls p m) (h' : Made ls p m') : m = m' := by
  obtain ⟨i, l, h1, h2, h3, h4⟩ := h
  obtain ⟨j, l', h1', h2', h3', h4'⟩ := h'
  rcases Nat.lt_trichotomy i j with e | e | e
  · have := made_lt h1 h2 e; omega
  · subst e; exact Option.some.inj (h4.symm.trans h4')
  · have := made_lt h1' h2' e; omega

/-- some goroutine has put `p` into the table as `f` -/
def Assigned (ls : List (SLabel ω H)) (f : FID) (p : Ptr) : Prop := ∃ g, SLabel.op g (.assign f p) ∈ ls

/-- Every structure is put into the table once, in the call that has made it. -/
structure Fresh (ls : List (SLabel ω H)) (s : SSys ω H) : Prop where
  next : ∀ g, s.mem.next g = ls.countP (SLabel.makes g)
  busy : ∀ g m p, s.run g = some (m, p) → ∃ x, Obeys (· ∈ Spec.fids m) (fun _ => True) m x p ∧
    ∀ q, x.fresh = some q → q.1 = g ∧ q.2 < s.mem.next g ∧ Made ls q m ∧ ∀ f, ¬ Assigned ls f q
  assigned : ∀ f p, Assigned ls f p → ∃ m, Made ls p m ∧ f ∈ Spec.fids m ∧ p.2 < s.mem.next p.1
  once : ∀ f f' p, Assigned ls f p → Assigned ls f' p → f = f'

theorem next_op {g : Nat} {c : MOp H} {s mem : SMem H} {a : c.Ans} (ha : s.act g c = some (mem, a)) (g' : Nat) :
    mem.next g' = s.next g' + if (SLabel.op g c : SLabel ω H).makes g' then 1 else 0 := by
  cases c with
  | lock =>
    simp only [SMem.act] at ha
    split at ha
    · cases ha; simp [SLabel.makes]
    · cases ha
  | unlock =>
    simp only [SMem.act] at ha
    split at ha
    · cases ha; simp [SLabel.makes]
    · cases ha
  | alloc f =>
    cases ha
    simp only [SLabel.makes, beq_iff_eq]
    by_cases e : g' = g
    · subst e; simp
    · rw [if_neg e, if_neg (Ne.symm e)]; rfl
  | _ => cases ha; simp [SLabel.makes]

theorem assigned_snoc {ls : List (SLabel ω H)} {l : SLabel ω H} {f : FID} {p : Ptr} :
    Assigned (ls ++ [l]) f p ↔ Assigned ls f p ∨ ∃ g, l = .op g (.assign f p) := by
  constructor
  · rintro ⟨g, hg⟩
    rcases List.mem_append.1 hg with h | h
    · exact .inl ⟨g, h⟩
    · exact .inr ⟨g, (List.mem_singleton.1 h).symm⟩
  · rintro (⟨g, hg⟩ | ⟨g, rfl⟩)
    · exact ⟨g, List.mem_append_left _ hg⟩
    · exact ⟨g, by simp⟩

theorem fresh {ls : List (SLabel ω H)} {s : SSys ω H} (h : SRun user rootPath iounit host w0 ls s) : Fresh ls s := by
  induction h with
  | init => exact ⟨fun _ => rfl, by simp, (by rintro f p ⟨g, hg⟩; simp at hg), (by rintro f f' p ⟨g, hg⟩; simp at hg)⟩
  | @step ls s s' l c h hs ih =>
    have hpre : ls <+: ls ++ [l] := List.prefix_append _ _
    -- a step that is no operation in memory
    have plain : (∀ g c, l ≠ .op g c) → s'.mem = s.mem →
        (∀ g m p, s'.run g = some (m, p) → ∃ x, Obeys (· ∈ Spec.fids m) (fun _ => True) m x p ∧
          ∀ q, x.fresh = some q → ∃ p', s.run g = some (m, p') ∧ q.1 = g ∧ q.2 < s.mem.next g ∧ Made ls q m ∧ ∀ f, ¬ Assigned ls f q) →
        Fresh (ls ++ [l]) s' := by
      intro hl hmem hrun
      have hA : ∀ {f p}, Assigned (ls ++ [l]) f p → Assigned ls f p := fun h => by
        rcases assigned_snoc.1 h with h | ⟨g, h⟩
        · exact h
        · exact absurd h (hl g _)
      refine ⟨fun g => ?_, fun g m p hg => ?_, fun f p hf => ?_, fun f f' p h1 h2 => ih.once f f' p (hA h1) (hA h2)⟩
      · rw [hmem, ih.next, List.countP_append]
        have : l.makes g = false := by
          cases l with
          | op g' c => exact absurd rfl (hl g' c)
          | _ => rfl
        simp [this]
      · obtain ⟨x, hx, hq⟩ := hrun g m p hg
        refine ⟨x, hx, fun q e => ?_⟩
        obtain ⟨_, _, h1, h2, h3, h4⟩ := hq q e
        exact ⟨h1, by rw [hmem]; exact h2, made_mono h3 hpre, fun f hf => h4 f (hA hf)⟩
      · obtain ⟨m, h1, h2, h3⟩ := ih.assigned f p (hA hf)
        exact ⟨m, made_mono h1 hpre, h2, by rw [hmem]; exact h3⟩
    rcases step_cases hs with ⟨g, m, rfl, h1, rfl⟩ | ⟨g, m, r, rfl, h1, rfl⟩ | ⟨g, m, c, k, mem, a, rfl, h1, h2, rfl⟩ |
      ⟨g, m, c, k, rfl, h1, rfl⟩ | ⟨w, rfl, rfl⟩
    · refine plain (by simp) rfl fun i m' p hi => ?_
      simp only [SSys.setRun] at hi
      split at hi
      · cases hi
        exact ⟨{}, obeys_call user rootPath iounit m fun f hf => hf, by simp⟩
      · obtain ⟨x, hx, hq⟩ := ih.busy i m' p hi
        exact ⟨x, hx, fun q e => ⟨p, hi, hq q e⟩⟩
    · refine plain (by simp) rfl fun i m' p hi => ?_
      simp only [SSys.setRun] at hi
      split at hi
      · cases hi
      · obtain ⟨x, hx, hq⟩ := ih.busy i m' p hi
        exact ⟨x, hx, fun q e => ⟨p, hi, hq q e⟩⟩
    · obtain ⟨x, hx, hq⟩ := ih.busy g m _ h1
      cases hx with
      | op hm hk =>
        have hnext : ∀ g', mem.next g' = s.mem.next g' + if (SLabel.op g c : SLabel ω H).makes g' then 1 else 0 := next_op h2
        have hle : ∀ g', s.mem.next g' ≤ mem.next g' := fun g' => by rw [hnext]; omega
        have hc := running h h1
        have hold : ∀ f p, Assigned ls f p → ∃ m, Made (ls ++ [.op g c]) p m ∧ f ∈ Spec.fids m ∧ p.2 < mem.next p.1 := fun f p hf => by
          obtain ⟨m, h1, h2, h3⟩ := ih.assigned f p hf
          exact ⟨m, made_mono h1 hpre, h2, Nat.lt_of_lt_of_le h3 (hle _)⟩
        -- the structure that is put into the table
        have hput : ∀ f p, c = .assign f p → x.fresh = some p ∧ f ∈ Spec.fids m := by
          rintro f p rfl
          exact ⟨hm.2.2.1, hm.1⟩
        refine ⟨fun g' => ?_, fun i m' p hi => ?_, fun f p hf => ?_, fun f f' p hf hf' => ?_⟩
        · show mem.next g' = _
          rw [hnext, ih.next, List.countP_append]
          simp [List.countP_cons]
        · simp only [SSys.setRun] at hi ⊢
          split at hi
          · rename_i e
            subst e
            cases hi
            refine ⟨x.next c a, hk a (by cases c <;> first | trivial | exact fun _ _ => trivial), fun q e => ?_⟩
            -- what was known to be new still is, unless it is this that is put into the table
            have keep : x.fresh = some q → (∀ f p, c ≠ .assign f p) → q.1 = i ∧ q.2 < mem.next i ∧ Made (ls ++ [.op i c]) q m ∧
                ∀ f, ¬ Assigned (ls ++ [.op i c]) f q := by
              intro e hne
              obtain ⟨h3, h4, h5, h6⟩ := hq q e
              refine ⟨h3, Nat.lt_of_lt_of_le h4 (hle _), made_mono h5 hpre, fun f hf => ?_⟩
              rcases assigned_snoc.1 hf with hf | ⟨_, hf⟩
              · exact h6 f hf
              · cases hf; exact hne _ _ rfl
            cases c with
            | lock => simp [Knows.next] at e
            | unlock => simp [Knows.next] at e
            | assign f p => simp [Knows.next] at e
            | alloc fl =>
              cases h2
              simp only [Knows.next, Option.some.injEq] at e
              subst e
              refine ⟨rfl, by simp, ⟨ls.length, .op i (.alloc fl), by simp, by simp [SLabel.makes], by simp [ih.next], by simpa using hc⟩, fun f hf => ?_⟩
              rcases assigned_snoc.1 hf with hf | ⟨_, hf⟩
              · obtain ⟨_, _, _, h3⟩ := ih.assigned f _ hf
                exact absurd h3 (Nat.lt_irrefl _)
              · cases hf
            | _ => exact keep e (by simp)
          · rename_i hne
            obtain ⟨y, hy, hq'⟩ := ih.busy i m' p hi
            refine ⟨y, hy, fun q e => ?_⟩
            obtain ⟨h3, h4, h5, h6⟩ := hq' q e
            refine ⟨h3, Nat.lt_of_lt_of_le h4 (hle _), made_mono h5 hpre, fun f hf => ?_⟩
            rcases assigned_snoc.1 hf with hf | ⟨_, hf⟩
            · exact h6 f hf
            · cases hf
              exact hne (h3.symm.trans (hq q (hput f q rfl).1).1)
        · rcases assigned_snoc.1 hf with hf | ⟨_, hf⟩
          · exact hold f p hf
          · cases hf
            obtain ⟨e, hf'⟩ := hput f p rfl
            obtain ⟨h3, h4, h5, _⟩ := hq p e
            exact ⟨m, made_mono h5 hpre, hf', by rw [h3]; exact Nat.lt_of_lt_of_le h4 (hle _)⟩
        · rcases assigned_snoc.1 hf with a1 | ⟨_, a1⟩ <;> rcases assigned_snoc.1 hf' with a2 | ⟨_, a2⟩
          · exact ih.once f f' p a1 a2
          · cases a2
            exact absurd a1 ((hq p (hput f' p rfl).1).2.2.2 f)
          · cases a1
            exact absurd a2 ((hq p (hput f p rfl).1).2.2.2 f')
          · cases a1
            cases a2
            rfl
    · refine plain (by simp) rfl fun i m' p hi => ?_
      simp only [SSys.setRun] at hi
      split at hi
      · rename_i e
        subst e
        cases hi
        obtain ⟨x, hx, hq⟩ := ih.busy i m _ h1
        cases hx with
        | host _ hk => exact ⟨x, hk _, fun q e => ⟨_, h1, hq q e⟩⟩
      · obtain ⟨x, hx, hq⟩ := ih.busy i m' p hi
        exact ⟨x, hx, fun q e => ⟨p, hi, hq q e⟩⟩
    · refine plain (by simp) rfl fun i m' p hi => ?_
      obtain ⟨x, hx, hq⟩ := ih.busy i m' p hi
      exact ⟨x, hx, fun q e => ⟨p, hi, hq q e⟩⟩

/-- A call follows the pointers only to the structures of the fids it names, and to the one it has made. -/
theorem good_named {L ls : List (SLabel ω H)} {t s : SSys ω H} (hL : SRun user rootPath iounit host w0 L t)
    (h : SRun user rootPath iounit host w0 ls s) (hp : ls <+: L) :
    Good (fun _ m f => f ∈ Spec.fids m) (fun g m p => (p.1 = g ∨ ∃ f, Assigned L f p) ∧ ∀ f, Assigned L f p → f ∈ Spec.fids m)
      (fun f p => Assigned L f p) (fun _ => False) s := by
  have F := fresh hL
  refine good (L := L) ?_ ?_ ?_ ?_ ?_ h hp
  · intro g m f p hT hf
    exact ⟨.inr ⟨f, hT⟩, fun f' hf' => F.once f f' p hT hf' ▸ hf⟩
  · intro ls' s' g m f p k _ hp' _ _ _
    exact ⟨g, hp'.subset (by simp)⟩
  · intro ls' s' g m fl k hr hp' hrun
    refine ⟨.inl rfl, fun f hf => ?_⟩
    obtain ⟨m', h1, h2, _⟩ := F.assigned f _ hf
    have : Made L (g, s'.mem.next g) m := by
      refine made_mono ⟨ls'.length, .op g (.alloc fl), by simp, by simp [SLabel.makes], ?_, ?_⟩ hp'
      · simp [(fresh hr).next]
      · simpa using running hr hrun
    rw [made_unique this h1]
    exact h2
  · exact fun g m _ f hf => hf
  · exact fun _ _ _ h => h

/-- Which accesses can race: to the table, of which one is made in an attach; to `rootPath`, both in an attach; to `versioned`, both in a
call of `Rversion`; and to a field of the structure of a fid, in two calls that both name the fid and of which one changes the field:
it is an open, a create, a wstat, or a read (of a directory). -/
theorem C122_races {ls : List (SLabel ω H)} {s : SSys ω H} (h : SRun user rootPath iounit host w0 ls s) {i j g g' : Nat} {x : Place}
    (hr : Race ls i j g g' x) : ∃ m m', current g (ls.take i) = some m ∧ current g' (ls.take j) = some m' ∧
      match x with
      | .table => (∃ q, m = .attach q) ∨ ∃ q, m' = .attach q
      | .root => (∃ q, m = .attach q) ∧ ∃ q, m' = .attach q
      | .versioned => (∃ q, m = .version q) ∧ ∃ q, m' = .version q
      | .field _ y => (∃ f, f ∈ Spec.fids m ∧ f ∈ Spec.fids m') ∧ (Changes m y ∨ Changes m' y) := by
  have look : ∀ {i g : Nat} {l : SLabel ω H} {b : Bool}, ls[i]? = some l → l.access = some (g, x, b) →
      ∃ m, current g (ls.take i) = some m ∧ (x = .root → ∃ q, m = .attach q) ∧ (x = .versioned → ∃ q, m = .version q) ∧
      (∀ p y, x = .field p y → ((p.1 = g ∨ ∃ f, Assigned ls f p) ∧ ∀ f, Assigned ls f p → f ∈ Spec.fids m) ∧ (b = true → Changes m y)) := by
    intro i g l b hi ha
    obtain ⟨t, t', c, ht, hst⟩ := upTo h hi
    have G := good_named h ht (List.take_prefix i ls)
    rcases step_cases hst with ⟨_, _, rfl, _, rfl⟩ | ⟨_, _, _, rfl, _, rfl⟩ | ⟨g', m, c, k, mem, a, rfl, h1, h2, rfl⟩ |
      ⟨_, _, _, _, rfl, _, rfl⟩ | ⟨_, rfl, rfl⟩
    · cases ha
    · cases ha
    · obtain ⟨y, hy1, _⟩ := G.busy g' m _ h1
      have hc := running ht h1
      cases hy1 with
      | op hm _ =>
        cases c with
        | setRoot p => cases ha; exact ⟨m, hc, fun _ => hm, by simp, by simp⟩
        | setVersioned => cases ha; exact ⟨m, hc, by simp, fun _ => hm, by simp⟩
        | load p f => cases ha; exact ⟨m, hc, by simp, by simp, by rintro _ _ ⟨⟩; exact ⟨hm, by simp⟩⟩
        | store p f v => cases ha; exact ⟨m, hc, by simp, by simp, by rintro _ _ ⟨⟩; exact ⟨hm.1, fun _ => hm.2⟩⟩
        | lock => cases ha
        | unlock => cases ha
        | alloc f => cases ha
        | _ => cases ha; exact ⟨m, hc, by simp, by simp, by simp⟩
    · cases ha
    · cases ha
  obtain ⟨li, lj, b, b', hi, hj, ai, aj, hb⟩ := hr.acc
  obtain ⟨m, hm, h1⟩ := look hi ai
  obtain ⟨m', hm', h2⟩ := look hj aj
  refine ⟨m, m', hm, hm', ?_⟩
  cases x with
  | table =>
    rcases C122_table_guarded h hr with ⟨q, h⟩ | ⟨q, h⟩
    · exact .inl ⟨q, Option.some.inj (hm.symm.trans h)⟩
    · exact .inr ⟨q, Option.some.inj (hm'.symm.trans h)⟩
  | root => exact ⟨h1.1 rfl, h2.1 rfl⟩
  | versioned => exact ⟨h1.2.1 rfl, h2.2.1 rfl⟩
  | field p y =>
    obtain ⟨⟨a1, a2⟩, a3⟩ := h1.2.2 p y rfl
    obtain ⟨⟨b1, b2⟩, b3⟩ := h2.2.2 p y rfl
    refine ⟨?_, hb.imp a3 b3⟩
    rcases a1 with e | ⟨f, hf⟩
    · rcases b1 with e' | ⟨f, hf⟩
      · exact absurd (e.symm.trans e') hr.ne
      · exact ⟨f, a2 f hf, b2 f hf⟩
    · exact ⟨f, a2 f hf, b2 f hf⟩

/-- every goroutine has fids of its own -/
def Owned (owner : FID → Nat) (ls : List (SLabel ω H)) : Prop := ∀ g m, SLabel.begin g m ∈ ls → ∀ f ∈ Spec.fids m, owner f = g

theorem good_owned {owner : FID → Nat} {ls : List (SLabel ω H)} {s : SSys ω H} (h : SRun user rootPath iounit host w0 ls s)
    (ho : Owned owner ls) : Good (fun g _ f => owner f = g) (fun g _ p => p.1 = g) (fun f p => p.1 = owner f) (fun _ => False) s :=
  good (L := ls) (fun _ _ _ _ h1 h2 => h1.trans h2) (fun _ _ _ _ _ _ _ _ _ _ h1 h2 => h2.trans h1.symm) (fun _ _ _ _ _ _ _ _ _ => rfl)
    ho (fun _ _ _ h => h) h (List.prefix_refl _)

/-- Goroutines that have fids of their own: if two accesses race, then one is made in an attach, or both in calls of
`Rversion`. -/
theorem C122_races_partial {owner : FID → Nat} {ls : List (SLabel ω H)} {s : SSys ω H} (h : SRun user rootPath iounit host w0 ls s)
    (ho : Owned owner ls) {i j g g' : Nat} {x : Place} (hr : Race ls i j g g' x) :
    (∃ q, current g (ls.take i) = some (.attach q)) ∨ (∃ q, current g' (ls.take j) = some (.attach q)) ∨
    ((∃ q, current g (ls.take i) = some (.version q)) ∧ (∃ q, current g' (ls.take j) = some (.version q)) ∧ x = .versioned) := by
  obtain ⟨m, m', hm, hm', hx⟩ := C122_races h hr
  cases x with
  | table =>
    rcases hx with ⟨q, rfl⟩ | ⟨q, rfl⟩
    · exact .inl ⟨q, hm⟩
    · exact .inr (.inl ⟨q, hm'⟩)
  | root =>
    obtain ⟨⟨q, rfl⟩, _⟩ := hx
    exact .inl ⟨q, hm⟩
  | versioned =>
    obtain ⟨⟨q, rfl⟩, ⟨q', rfl⟩⟩ := hx
    exact .inr (.inr ⟨⟨q, hm⟩, ⟨q', hm'⟩, rfl⟩)
  | field p y =>
    obtain ⟨⟨f, hf, hf'⟩, _⟩ := hx
    have h1 := ho g m (List.mem_of_mem_take (begun hm)) f hf
    have h2 := ho g' m' (List.mem_of_mem_take (begun hm')) f hf'
    exact absurd (h1.symm.trans h2) hr.ne

/-! ### Each goroutine for itself -/

/-- what a goroutine does and sees -/
inductive Seen (H : Type) where
  | begin (m : TMsg)
  | call (e : Ev H)
  | done (r : Except GoString RMsg)

/-- the steps of goroutine `g` but for those in memory -/
def seenBy (g : Nat) : List (SLabel ω H) → List (Seen H)
  | [] => []
  | .begin g' m :: ls => if g' = g then .begin m :: seenBy g ls else seenBy g ls
  | .call g' e :: ls => if g' = g then .call e :: seenBy g ls else seenBy g ls
  | .done g' r :: ls => if g' = g then .done r :: seenBy g ls else seenBy g ls
  | _ :: ls => seenBy g ls

/-- A `FileServer` for one goroutine alone, whose methods are called one after the other: the operating system gives the answers `evs`,
and `evs` are exactly the calls that the method makes. -/
inductive Alone (user rootPath : GoString) (iounit : MaxSize) : List (Seen H) → Obj H → Prop
  | nil : Alone user rootPath iounit [] { newObj rootPath with IOunit := iounit }
  | ok {h o} (m : TMsg) (evs : List (Ev H)) {s' r} : Alone user rootPath iounit h o →
      Spec.call (ufs (scripted H) user) m (o.into ⟨evs, []⟩) = .ok s' r → s'.world = ⟨[], evs⟩ →
      Alone user rootPath iounit (h ++ (.begin m :: evs.map .call ++ [.done (.ok r)])) s'.obj
  | err {h o} (m : TMsg) (evs : List (Ev H)) {s' e} : Alone user rootPath iounit h o →
      Spec.call (ufs (scripted H) user) m (o.into ⟨evs, []⟩) = .err s' e → s'.world = ⟨[], evs⟩ →
      Alone user rootPath iounit (h ++ (.begin m :: evs.map .call ++ [.done (.error e)])) s'.obj

theorem seenBy_append (g : Nat) (ls ls' : List (SLabel ω H)) : seenBy g (ls ++ ls') = seenBy g ls ++ seenBy g ls' := by
  induction ls with
  | nil => rfl
  | cons l ls ih =>
    cases l <;> simp only [List.cons_append, seenBy] <;> first | exact ih | (split <;> simp [ih])

/-- the two memories are the same to goroutine `g`, which has the fids `V` and the pointers `O` -/
structure Near (g : Nat) (O : Ptr → Prop) (V : FID → Prop) (s s' : SMem H) : Prop where
  files : ∀ f, V f → s.files f = s'.files f
  heap : ∀ p, O p → s.heap p = s'.heap p
  next : ∀ p, O p → p.2 < s'.next p.1 → p.2 < s.next p.1
  mine : s.next g = s'.next g

variable {g : Nat} {O : Ptr → Prop} {V : FID → Prop}

theorem near_agrees {s s' : SMem H} {o : Obj H} (h : Near g O V s' s) (ha : Agrees rootPath iounit g O V s o) :
    Agrees rootPath iounit g O V s' o where
  own f hf p hp := by
    obtain ⟨h1, h2⟩ := ha.own f hf p ((h.files f hf).symm.trans hp)
    exact ⟨h1, h.next p h1 h2⟩
  mine n hn := ha.mine n (by rw [← h.mine]; exact hn)
  inj f f' hf hf' p h1 h2 := ha.inj f f' hf hf' p ((h.files f hf).symm.trans h1) ((h.files f' hf').symm.trans h2)
  files f hf := by
    rw [ha.files f hf, h.files f hf]
    cases hp : s.files f with
    | none => rfl
    | some p => simp [h.heap p (ha.own f hf p hp).1]
  root := ha.root
  io := ha.io

theorem plain_near {m : TMsg} {x : Knows} {c : MOp H} (hm : c.May V O m x) {s s' : SMem H} (h : Near g O V s s')
    (ht : ∀ f, V f → ∀ p, s.files f = some p → O p) (hg : ∀ n, s.next g ≤ n → O (g, n)) :
    (s.plain g c).2 = (s'.plain g c).2 ∧ Near g O V (s.plain g c).1 (s'.plain g c).1 ∧ c.Gets O (s.plain g c).2 ∧
    (∀ f, V f → ∀ p, (s.plain g c).1.files f = some p → O p) ∧ ∀ n, (s.plain g c).1.next g ≤ n → O (g, n) := by
  cases c with
  | lock => exact ⟨rfl, h, trivial, ht, hg⟩
  | unlock => exact ⟨rfl, h, trivial, ht, hg⟩
  | setVersioned => exact ⟨rfl, ⟨h.files, h.heap, h.next, h.mine⟩, trivial, ht, hg⟩
  | setRoot p => exact ⟨rfl, ⟨h.files, h.heap, h.next, h.mine⟩, trivial, ht, hg⟩
  | lookup fid => exact ⟨h.files fid hm.1, h, fun p hp => ht fid hm.1 p hp, ht, hg⟩
  | assign fid p =>
    refine ⟨rfl, ⟨fun f hf => ?_, h.heap, h.next, h.mine⟩, trivial, fun f hf q hq => ?_, hg⟩
    · simp only [SMem.plain]
      split
      · rfl
      · exact h.files f hf
    · simp only [SMem.plain] at hq
      split at hq
      · cases hq; exact hm.2.1
      · exact ht f hf q hq
  | delete fid =>
    refine ⟨rfl, ⟨fun f hf => ?_, h.heap, h.next, h.mine⟩, trivial, fun f hf q hq => ?_, hg⟩
    · simp only [SMem.plain]
      split
      · rfl
      · exact h.files f hf
    · simp only [SMem.plain] at hq
      split at hq
      · cases hq
      · exact ht f hf q hq
  | alloc fl =>
    refine ⟨?_, ⟨h.files, fun p hp => ?_, fun p hp hn => ?_, ?_⟩, hg _ (Nat.le_refl _), ht, fun n hn => ?_⟩
    · simp only [SMem.plain, h.mine]
    · simp only [SMem.plain, h.mine]
      split
      · rfl
      · exact h.heap p hp
    · simp only [SMem.plain] at hn ⊢
      split
      · rename_i e; rw [if_pos e, ← h.mine] at hn; exact hn
      · rename_i e; rw [if_neg e] at hn; exact h.next p hp hn
    · simp only [SMem.plain, h.mine]
    · simp only [SMem.plain, if_true] at hn
      exact hg n (Nat.le_of_succ_le hn)
  | load p f =>
    refine ⟨?_, h, trivial, ht, hg⟩
    simp only [SMem.plain, h.heap p hm]
  | store p f v =>
    refine ⟨rfl, ⟨h.files, fun q hq => ?_, h.next, h.mine⟩, trivial, ht, hg⟩
    simp only [SMem.plain, h.heap p hm.1]
    split
    · rfl
    · exact h.heap q hq

theorem alone_near {α : Type} {m : TMsg} {x : Knows} {p : MProg H α} (hp : Obeys V O m x p) {s s' : SMem H}
    (h : Near g O V s s') (ht : ∀ f, V f → ∀ p, s.files f = some p → O p) (hg : ∀ n, s.next g ≤ n → O (g, n)) :
    Rel (Near g O V) Eq (p.alone g s) (p.alone g s') := by
  induction hp generalizing s s' with
  | ret _ => exact .ret h rfl
  | panic _ => exact .panic
  | @op x c k hm _ ih =>
    obtain ⟨h1, h2, h3, h4, h5⟩ := plain_near hm h ht hg
    simp only [MProg.alone]
    rw [← h1]
    exact ih _ h3 h2 h4 h5
  | host _ _ ih => exact .call fun a => ih a h ht hg

theorem rel_comp {σ τ υ α : Type} {P : σ → τ → Prop} {P' : τ → υ → Prop} {P'' : σ → υ → Prop} (hc : ∀ a b c, P a b → P' b c → P'' a c)
    {p : Prog H (σ × α)} {q : Prog H (τ × α)} {r : Prog H (υ × α)} (h : Rel P Eq p q) (h' : Rel P' Eq q r) : Rel P'' Eq p r := by
  induction h generalizing r with
  | ret h1 h2 =>
    subst h2
    cases h' with
    | ret h3 h4 => subst h4; exact .ret (hc _ _ _ h1 h3) rfl
  | panic => cases h'; exact .panic
  | call _ ih =>
    cases h' with
    | call h2 => exact .call fun a => ih a (h2 a)

theorem same_near {α : Type} {p q : Prog H (SMem H × α)} {r : Prog H (Obj H × α)} (h : Rel (Near g O V) Eq p q)
    (h' : Same rootPath iounit g O V q r) : Same rootPath iounit g O V p r :=
  rel_comp (P := Near g O V) (P' := Agrees rootPath iounit g O V) (P'' := Agrees rootPath iounit g O V)
    (fun _ _ _ h1 h2 => near_agrees h1 h2) h h'

theorem act_plain {s mem : SMem H} {c : MOp H} {a : c.Ans} (h : s.act g c = some (mem, a)) :
    a = (s.plain g c).2 ∧ Near g O V mem (s.plain g c).1 := by
  cases c with
  | lock =>
    simp only [SMem.act] at h
    split at h
    · cases h; exact ⟨rfl, fun _ _ => rfl, fun _ _ => rfl, fun _ _ h => h, rfl⟩
    · cases h
  | unlock =>
    simp only [SMem.act] at h
    split at h
    · cases h; exact ⟨rfl, fun _ _ => rfl, fun _ _ => rfl, fun _ _ h => h, rfl⟩
    · cases h
  | _ => cases h; exact ⟨rfl, fun _ _ => rfl, fun _ _ => rfl, fun _ _ h => h, rfl⟩

/-- what an operation in memory leaves alone -/
theorem act_frame {s mem : SMem H} {m : TMsg} {x : Knows} {c : MOp H} {a : c.Ans} (h : s.act g c = some (mem, a)) (hm : c.May V O m x)
    (hg : ∀ n, s.next g ≤ n → O (g, n)) : (∀ f, ¬ V f → mem.files f = s.files f) ∧ (∀ p, ¬ O p → mem.heap p = s.heap p) ∧
    (∀ g', g' ≠ g → mem.next g' = s.next g') ∧ ∀ g', s.next g' ≤ mem.next g' := by
  cases c with
  | lock =>
    simp only [SMem.act] at h
    split at h
    · cases h; exact ⟨fun _ _ => rfl, fun _ _ => rfl, fun _ _ => rfl, fun _ => Nat.le_refl _⟩
    · cases h
  | unlock =>
    simp only [SMem.act] at h
    split at h
    · cases h; exact ⟨fun _ _ => rfl, fun _ _ => rfl, fun _ _ => rfl, fun _ => Nat.le_refl _⟩
    · cases h
  | assign fid p =>
    cases h
    refine ⟨fun f hf => ?_, fun _ _ => rfl, fun _ _ => rfl, fun _ => Nat.le_refl _⟩
    have : f ≠ fid := by rintro rfl; exact hf hm.1
    simp [this]
  | delete fid =>
    cases h
    refine ⟨fun f hf => ?_, fun _ _ => rfl, fun _ _ => rfl, fun _ => Nat.le_refl _⟩
    have : f ≠ fid := by rintro rfl; exact hf hm.1
    simp [this]
  | alloc fl =>
    cases h
    refine ⟨fun _ _ => rfl, fun p hp => ?_, fun g' e => ?_, fun g' => ?_⟩
    · have : p ≠ (g, s.next g) := by rintro rfl; exact hp (hg _ (Nat.le_refl _))
      simp [this]
    · simp [e]
    · dsimp only
      split
      · rename_i e; subst e; exact Nat.le_succ _
      · exact Nat.le_refl _
  | store p f v =>
    cases h
    refine ⟨fun _ _ => rfl, fun q hq => ?_, fun _ _ => rfl, fun _ => Nat.le_refl _⟩
    have : q ≠ p := by rintro rfl; exact hq hm.1
    simp [this]
  | _ => cases h; exact ⟨fun _ _ => rfl, fun _ _ => rfl, fun _ _ => rfl, fun _ => Nat.le_refl _⟩

theorem act_other {O' : Ptr → Prop} {V' : FID → Prop} {g' : Nat} (hg : g' ≠ g) {s mem : SMem H} {m : TMsg} {x : Knows} {c : MOp H} {a : c.Ans}
    (h : s.act g' c = some (mem, a)) (hm : c.May V' O' m x) (hn : ∀ n, s.next g' ≤ n → O' (g', n)) (hv : ∀ f, V f → ¬ V' f)
    (ho : ∀ p, O p → ¬ O' p) : Near g O V mem s := by
  obtain ⟨h1, h2, h3, h4⟩ := act_frame h hm hn
  exact ⟨fun f hf => h1 f (hv f hf), fun p hp => h2 p (ho p hp), fun p _ hl => Nat.lt_of_lt_of_le hl (h4 _), h3 g (Ne.symm hg)⟩

/-- the state of goroutine `g` after the steps `ls` -/
def Mine (user rootPath : GoString) (iounit : MaxSize) (V : FID → Prop) (g : Nat) (ls : List (SLabel ω H)) (s : SSys ω H) : Prop :=
  match s.run g with
  | none => ∃ o, Alone user rootPath iounit (seenBy g ls) o ∧ Agrees rootPath iounit g (fun p => p.1 = g) V s.mem o
  | some (m, p) => ∃ h o evs q, Alone user rootPath iounit h o ∧ seenBy g ls = h ++ (.begin m :: evs.map .call) ∧
      (pcall user m o).Path evs q ∧ Same rootPath iounit g (fun p => p.1 = g) V (p.alone g s.mem) q

theorem alone_done {h : List (Seen H)} {o o' : Obj H} {m : TMsg} {evs : List (Ev H)} {r : Except GoString RMsg}
    (ha : Alone user rootPath iounit h o) (hp : (pcall user m o).Path evs (.ret (o', r))) :
    Alone user rootPath iounit (h ++ (.begin m :: evs.map .call ++ [.done r])) o' := by
  have hrun : (pcall user m o).run (scripted H) ⟨evs, []⟩ = some (⟨[], evs⟩, (o', r)) := by
    have := hp.replay rfl [] []
    simpa using this
  have hcall : Spec.call (ufs (scripted H) user) m (o.into ⟨evs, []⟩) = toRes (some (⟨[], evs⟩, (o', r))) := by
    rw [run_call]
    exact congrArg toRes hrun
  cases r with
  | ok r => exact .ok m evs ha hcall rfl
  | error e => exact .err m evs ha hcall rfl

theorem mine {owner : FID → Nat} {ls : List (SLabel ω H)} {s : SSys ω H} (h : SRun user rootPath iounit host w0 ls s)
    (ho : Owned owner ls) (g : Nat) : Mine user rootPath iounit (fun f => owner f = g) g ls s := by
  induction h with
  | init => exact ⟨_, .nil, by simp, fun _ _ => rfl, by simp, fun _ _ => rfl, rfl, rfl⟩
  | @step ls s s' l c h hs ih =>
    have ho' : Owned owner ls := fun g m hm => ho g m (List.mem_append_left _ hm)
    have M := ih ho'
    have G := good_owned h ho'
    have ht : ∀ f, owner f = g → ∀ p, s.mem.files f = some p → p.1 = g := fun f hf p hp => (G.tab f p hp).trans hf
    unfold Mine at M ⊢
    rcases step_cases hs with ⟨g', m, rfl, h1, rfl⟩ | ⟨g', m, r, rfl, h1, rfl⟩ | ⟨g', m, c, k, mem, a, rfl, h1, h2, rfl⟩ |
      ⟨g', m, c, k, rfl, h1, rfl⟩ | ⟨w, rfl, rfl⟩ <;> simp only [SSys.setRun, seenBy_append, seenBy, List.append_nil]
    · by_cases e : g' = g
      · subst e
        rw [h1] at M
        obtain ⟨o, M1, M2⟩ := M
        simp only [if_true]
        exact ⟨_, o, [], _, M1, by simp, .nil, same_call user M2 m fun f hf => ho g' m (by simp) f hf⟩
      · simp only [if_neg e, if_neg (Ne.symm e), List.append_nil]
        exact M
    · by_cases e : g' = g
      · subst e
        rw [h1] at M
        obtain ⟨l0, o, evs, q, M1, M2, M3, M4⟩ := M
        simp only [if_true]
        cases M4 with
        | ret h3 h4 =>
          subst h4
          refine ⟨_, ?_, h3⟩
          rw [M2]
          have := alone_done M1 M3
          simpa using this
      · simp only [if_neg e, if_neg (Ne.symm e), List.append_nil]
        exact M
    · obtain ⟨x, hx1, _, _⟩ := G.busy g' m _ h1
      cases hx1 with
      | op hm hk =>
        by_cases e : g' = g
        · subst e
          rw [h1] at M
          obtain ⟨l0, o, evs, q, M1, M2, M3, M4⟩ := M
          simp only [if_true]
          refine ⟨l0, o, evs, q, M1, M2, M3, ?_⟩
          obtain ⟨ha, hn⟩ := act_plain (O := fun p => p.1 = g') (V := fun f => owner f = g') h2
          have hget := gets_op h2 hm (fun _ _ => rfl) (fun _ _ h1 h2 => h1.trans h2) G.tab
          have hto := alone_near (hk a hget) hn fun f hf p hp =>
            (tab_op (T := fun f p => p.1 = owner f) h2 (by rintro f p rfl; exact hm.2.1.trans hm.1.symm) G.tab f p hp).trans hf
          have hto := hto fun _ _ => rfl
          refine same_near hto ?_
          simp only [MProg.alone] at M4
          rw [← ha] at M4
          exact M4
        · have hn := act_other (O := fun p => p.1 = g) (V := fun f => owner f = g) e h2 hm (fun _ _ => rfl)
            (fun f hf hf' => e (hf'.symm.trans hf)) (fun p hp hp' => e (hp'.symm.trans hp))
          simp only [if_neg (Ne.symm e)]
          cases hr : s.run g with
          | none =>
            rw [hr] at M
            obtain ⟨o, M1, M2⟩ := M
            exact ⟨o, M1, near_agrees hn M2⟩
          | some y =>
            obtain ⟨m', p⟩ := y
            rw [hr] at M
            obtain ⟨l0, o, evs, q, M1, M2, M3, M4⟩ := M
            obtain ⟨y, hy1, _⟩ := G.busy g m' p hr
            refine ⟨l0, o, evs, q, M1, M2, M3, same_near (alone_near hy1 hn (fun f hf p hp => ?_) fun _ _ => rfl) M4⟩
            exact ht f hf p ((hn.files f hf).symm.trans hp)
    · by_cases e : g' = g
      · subst e
        rw [h1] at M
        obtain ⟨l0, o, evs, q, M1, M2, M3, M4⟩ := M
        simp only [if_true]
        cases M4 with
        | call h3 => exact ⟨l0, o, evs ++ [⟨c, _⟩], _, M1, by simp [M2], M3.snoc _, h3 _⟩
      · simp only [if_neg e, if_neg (Ne.symm e), List.append_nil]
        exact M
    · exact M

/-- Goroutines that have fids of their own: each of them makes the calls of the operating system, and gets the results, that it would with a
`FileServer` of its own, given the same answers of the operating system. -/
theorem C122_independent_partial {owner : FID → Nat} {ls : List (SLabel ω H)} {s : SSys ω H} (h : SRun user rootPath iounit host w0 ls s)
    (ho : Owned owner ls) {g : Nat} (hr : s.run g = none) : ∃ o, Alone user rootPath iounit (seenBy g ls) o := by
  have M := mine h ho g
  unfold Mine at M
  rw [hr] at M
  obtain ⟨o, M1, _⟩ := M
  exact ⟨o, M1⟩

/-- The same in the middle of a call: the finished ones as above, and if the goroutine panics now, so does the call with a `FileServer` of its own. -/
theorem C122_panics_partial {owner : FID → Nat} {ls : List (SLabel ω H)} {s : SSys ω H} (h : SRun user rootPath iounit host w0 ls s)
    (ho : Owned owner ls) {g : Nat} {m : TMsg} {p : MMet H RMsg} (hr : s.run g = some (m, p)) :
    ∃ l o evs, Alone user rootPath iounit l o ∧ seenBy g ls = l ++ (.begin m :: evs.map .call) ∧
      (p = .panic → Spec.call (ufs (scripted H) user) m (o.into ⟨evs, []⟩) = .panic) := by
  have M := mine h ho g
  unfold Mine at M
  rw [hr] at M
  obtain ⟨l, o, evs, q, M1, M2, M3, M4⟩ := M
  refine ⟨l, o, evs, M1, M2, ?_⟩
  rintro rfl
  cases M4
  have : (pcall user m o).run (scripted H) ⟨evs, []⟩ = none := M3.replay_panic rfl []
  rw [run_call]
  exact congrArg toRes this

end

/-! ### Examples and counterexamples -/

section
variable {ω H : Type} {user rootPath : GoString} {iounit : MaxSize} {host : Host ω H} {w0 : ω}

/-- the execution that makes these choices; those that are not possible are left out -/
def drive (user rootPath : GoString) (iounit : MaxSize) (host : Host ω H) : List (SLabel ω H) × SSys ω H → List (Choice ω) → List (SLabel ω H) × SSys ω H
  | r, [] => r
  | (ls, s), c :: cs =>
    match s.step user rootPath iounit host c with
    | none => drive user rootPath iounit host (ls, s) cs
    | some (s', l) => drive user rootPath iounit host (ls ++ [l], s') cs

theorem drive_run (cs : List (Choice ω)) : ∀ r : List (SLabel ω H) × SSys ω H, SRun user rootPath iounit host w0 r.1 r.2 →
    SRun user rootPath iounit host w0 (drive user rootPath iounit host r cs).1 (drive user rootPath iounit host r cs).2 := by
  induction cs with
  | nil => exact fun r h => h
  | cons c cs ih =>
    rintro ⟨ls, s⟩ h
    simp only [drive]
    split
    · exact ih _ h
    · rename_i s' l hs
      exact ih (ls ++ [l], s') (.step c h hs)

/-- nothing is unlocked between two steps of different goroutines: they are in no order -/
theorem before_unlock {ls : List (SLabel ω H)} {i j : Nat} (h : Before ls i j) : i < j ∧ ∀ li lj g g', ls[i]? = some li → ls[j]? = some lj →
    li.who = some g → lj.who = some g' → g ≠ g' → ∃ k g'', i ≤ k ∧ k < j ∧ ls[k]? = some (.op g'' .unlock) := by
  induction h with
  | own h1 h2 h3 h4 h5 =>
    refine ⟨h1, fun li lj g g' e1 e2 e3 e4 hne => ?_⟩
    rw [h2] at e1; rw [h3] at e2
    cases e1; cases e2
    rw [h4] at e3; rw [h5] at e4
    cases e3; cases e4
    exact absurd rfl hne
  | mutex h1 h2 h3 => exact ⟨h1, fun _ _ _ _ _ _ _ _ _ => ⟨_, _, Nat.le_refl _, h1, h2⟩⟩
  | @trans i j k h1 h2 ih1 ih2 =>
    refine ⟨Nat.lt_trans ih1.1 ih2.1, fun li lk g g' e1 e2 e3 e4 hne => ?_⟩
    have hw : ∀ {i j : Nat}, Before ls i j → (∃ l g, ls[i]? = some l ∧ l.who = some g) ∧ ∃ l g, ls[j]? = some l ∧ l.who = some g := by
      intro i j h
      induction h with
      | own _ h2 h3 h4 h5 => exact ⟨⟨_, _, h2, h4⟩, _, _, h3, h5⟩
      | mutex _ h2 h3 => exact ⟨⟨_, _, h2, rfl⟩, _, _, h3, rfl⟩
      | trans _ _ ih1 ih2 => exact ⟨ih1.1, ih2.2⟩
    obtain ⟨lj, gj, e5, e6⟩ := (hw h1).2
    by_cases e : g = gj
    · subst e
      obtain ⟨n, g'', a1, a2, a3⟩ := ih2.2 lj lk g g' e5 e2 e6 e4 hne
      exact ⟨n, g'', Nat.le_trans (Nat.le_of_lt ih1.1) a1, a2, a3⟩
    · obtain ⟨n, g'', a1, a2, a3⟩ := ih1.2 li lj g gj e1 e5 e3 e6 e
      exact ⟨n, g'', a1, Nat.lt_trans a2 ih2.1, a3⟩

def SLabel.isUnlock : SLabel ω H → Bool
  | .op _ .unlock => true
  | _ => false

/-- a check for races -/
def racesAt (ls : List (SLabel ω H)) (i j g g' : Nat) (x : Place) : Bool :=
  i < j && g != g' && (ls[i]?.bind SLabel.access == some (g, x, true)) && (ls[j]?.bind SLabel.access == some (g', x, true)) &&
    (List.range (j - i)).all fun n => (ls[i + n]?.map SLabel.isUnlock) == some false

theorem racesAt_race {ls : List (SLabel ω H)} {i j g g' : Nat} {x : Place} (h : racesAt ls i j g g' x = true) : Race ls i j g g' x := by
  simp only [racesAt, Bool.and_eq_true, decide_eq_true_eq, bne_iff_ne, beq_iff_eq, List.all_eq_true, List.mem_range] at h
  obtain ⟨⟨⟨⟨h1, h2⟩, h3⟩, h4⟩, h5⟩ := h
  cases e1 : ls[i]? with
  | none => rw [e1] at h3; cases h3
  | some li =>
    cases e2 : ls[j]? with
    | none => rw [e2] at h4; cases h4
    | some lj =>
      rw [e1] at h3
      rw [e2] at h4
      refine ⟨h1, h2, ⟨li, lj, true, true, e1, e2, h3, h4, .inl rfl⟩, fun hb => ?_⟩
      obtain ⟨k, g'', a1, a2, a3⟩ := (before_unlock hb).2 li lj g g' e1 e2 (access_who h3) (access_who h4) h2
      have := h5 (k - i) (by omega)
      rw [show i + (k - i) = k by omega, a3] at this
      cases this

/-- a check for `Owned` -/
def ownedBy (owner : FID → Nat) (ls : List (SLabel ω H)) : Bool :=
  ls.all fun l => match l with | .begin g m => (Spec.fids m).all fun f => owner f == g | _ => true

theorem ownedBy_owned {owner : FID → Nat} {ls : List (SLabel ω H)} (h : ownedBy owner ls = true) : Owned owner ls := by
  intro g m hm f hf
  have h1 := List.all_eq_true.1 h _ hm
  have h2 := List.all_eq_true.1 h1 f hf
  simpa using h2

end

open Mem

/-- goroutines on the example host -/
def shared (cs : List (Choice World)) : List (SLabel World Nat) × SSys World Nat :=
  drive [103] [47, 120] 8192 host ([], { world := world0 }) cs

theorem shared_run (cs : List (Choice World)) : SRun [103] [47, 120] 8192 host world0 (shared cs).1 (shared cs).2 :=
  drive_run cs _ .init

/-- goroutine `g` makes `n` steps -/
def go (g n : Nat) : List (Choice World) := List.replicate n (.step g)

/-- goroutine `g` makes a call, and nobody else does anything meanwhile -/
def whole (g : Nat) (m : TMsg) : List (Choice World) := .begin g m :: go g 40

/-- the fids of goroutine 0 are the small ones -/
def owner0 (f : FID) : Nat := if f < 10 then 0 else 1

def attachTo (f : FID) : TMsg := .attach { SFID := f, AFID := 0xFFFFFFFF }

/-- two goroutines attach, each to its own fid, at the same time -/
def twoAttach : List (Choice World) := [.begin 0 (attachTo 0), .begin 1 (attachTo 10)] ++ go 0 2 ++ go 1 2 ++ go 0 1 ++ go 1 1

/-- The races of `C122_races_partial` are there: `Rattach` writes to the map without the mutex, so two goroutines that attach
write to it at the same time. -/
theorem C122_attach_counterexample : ∃ ls s i j, SRun [103] [47, 120] 8192 host world0 ls s ∧ Owned owner0 ls ∧ Race ls i j 0 1 .table :=
  ⟨_, _, 6, 7, shared_run twoAttach, ownedBy_owned (by decide +kernel), racesAt_race (by decide +kernel)⟩

/-- … and on the field `Versioned` -/
theorem C122_version_counterexample : ∃ ls s i j, SRun [103] [47, 120] 8192 host world0 ls s ∧ Owned owner0 ls ∧ Race ls i j 0 1 .versioned :=
  ⟨_, _, 2, 3, shared_run ([.begin 0 (.version ⟨8192, lit "9P2000"⟩), .begin 1 (.version ⟨8192, lit "9P2000"⟩)] ++ go 0 1 ++ go 1 1),
    ownedBy_owned (by decide +kernel), racesAt_race (by decide +kernel)⟩

/-- two goroutines open the same fid -/
def twoOpen : List (Choice World) :=
  whole 0 (attachTo 0) ++ whole 0 (.walk { SFID := 0, NewFID := 1, Paths := [[102]] }) ++
  [.begin 0 (.open_ { OFID := 1 }), .begin 1 (.open_ { OFID := 1 })] ++ go 0 3 ++ go 1 3 ++ go 0 3 ++ go 1 3

/-- Without fids of their own: two goroutines open the same fid, both write its field `file`, in no order; and one of the
two files that were opened is never closed, though the fid is clunked. -/
theorem C122_open_counterexample :
    (∃ ls s i j p, SRun [103] [47, 120] 8192 host world0 ls s ∧ Race ls i j 0 1 (.field p .file)) ∧
    (∃ ls s, SRun [103] [47, 120] 8192 host world0 ls s ∧ (s.run 0).isNone ∧ (s.run 1).isNone ∧ s.mem.files 1 = none ∧
      s.world.opened.map Opened.isOpen = [true, false]) := by
  refine ⟨⟨_, _, 29, 32, (0, 1), shared_run twoOpen, racesAt_race (by decide +kernel)⟩,
    ⟨_, _, shared_run (twoOpen ++ go 0 9 ++ go 1 9 ++ whole 0 (.clunk { OFID := 1 })), ?_⟩⟩
  decide +kernel

/-- goroutine 0 walks to fid 5 and has found that it is not in use; goroutine 1 attaches to fid 5 -/
def stolen : List (Choice World) :=
  whole 0 (attachTo 0) ++ [.begin 0 (.walk { SFID := 0, NewFID := 5, Paths := [[102]] })] ++ go 0 8 ++ whole 1 (attachTo 5)

/-- An attach spoils `C122_table_partial`: goroutine 1 has attached to fid 5, its call has returned without an error, and then
a walk of goroutine 0 to fid 5, which has checked before that the fid is not in use, replaces it. -/
theorem C122_table_counterexample : ∃ ls s c s' l, SRun [103] [47, 120] 8192 host world0 ls s ∧
    s.step [103] [47, 120] 8192 host c = some (s', l) ∧ (s.run 1).isNone ∧
    ((seenBy 1 ls).getLast?.map fun x => match x with | .done (.ok _) => true | _ => false) = some true ∧
    current 0 ls = some (.walk { SFID := 0, NewFID := 5, Paths := [[102]] }) ∧
    s.mem.files 5 = some (1, 0) ∧ s'.mem.files 5 = some (0, 1) := by
  have h : (((shared stolen).2.step [103] [47, 120] 8192 host (.step 0)).map fun r => r.1.mem.files 5) = some (some (0, 1)) := by decide +kernel
  cases hs : (shared stolen).2.step [103] [47, 120] 8192 host (.step 0) with
  | none => rw [hs] at h; cases h
  | some r =>
    obtain ⟨s', l⟩ := r
    rw [hs] at h
    exact ⟨_, _, _, s', l, shared_run stolen, hs, by decide +kernel, by decide +kernel, by decide +kernel, by decide +kernel, Option.some.inj h⟩

/-- two goroutines, each with its own fids; goroutine 1 attaches, walks and opens while goroutine 0 is in the middle of a walk -/
def apart : List (Choice World) :=
  whole 0 (attachTo 0) ++ [.begin 0 (.walk { SFID := 0, NewFID := 1, Paths := [[102]] })] ++ go 0 3 ++ whole 1 (attachTo 10) ++
  whole 1 (.walk { SFID := 10, NewFID := 11, Paths := [[102]] }) ++ go 0 40 ++ [.begin 1 (.open_ { OFID := 11 })] ++ go 1 3 ++
  whole 0 (.open_ { OFID := 1 }) ++ go 1 40 ++ whole 0 (.read { OFID := 1, Len := 3 }) ++ whole 1 (.clunk { OFID := 11 })

/-- the outcomes: data that was read, `none` for an error -/
def outcomes (l : List (Seen Nat)) : List (Option Bytes) :=
  l.filterMap fun x => match x with
    | .done (.ok (.read p)) => some (some p.Data)
    | .done (.ok _) => some (some [])
    | .done (.error _) => some none
    | _ => none

/-- the hypotheses of `C122_independent_partial` -/
example : ∃ ls s, SRun [103] [47, 120] 8192 host world0 ls s ∧ Owned owner0 ls ∧ (s.run 0).isNone ∧ (s.run 1).isNone ∧
    outcomes (seenBy 0 ls) = [some [], some [], some [], some [1, 2, 3]] ∧ outcomes (seenBy 1 ls) = [some [], some [], some [], some []] :=
  ⟨_, _, shared_run apart, ownedBy_owned (by decide +kernel), by decide +kernel⟩

/-- the hypotheses of `C122_panics_partial`: a read with a negative count, on a goroutine that has fids of its own -/
example : ∃ ls s, SRun [103] [47, 120] 8192 host world0 ls s ∧ Owned owner0 ls ∧
    ((s.run 0).map fun r => match r.2 with | .panic => true | _ => false) = some true :=
  ⟨_, _, shared_run (apart ++ whole 0 (.read { OFID := 1, Len := -1 })), ownedBy_owned (by decide +kernel), by decide +kernel⟩

/-- `C122_no_deadlock`, `C122_released`: goroutine 1 waits for the mutex that goroutine 0 holds -/
example : ∃ ls s, SRun [103] [47, 120] 8192 host world0 ls s ∧ (s.run 1).isSome ∧
    (s.step [103] [47, 120] 8192 host (.step 1)).isNone ∧ s.mem.mu = some 0 :=
  ⟨_, _, shared_run ([.begin 0 (.clunk { OFID := 1 }), .begin 1 (.clunk { OFID := 2 })] ++ go 0 1), by decide +kernel⟩

/-- `C122_held_calls`: a file is closed with the mutex held -/
example : ∃ ls s, SRun [103] [47, 120] 8192 host world0 ls s ∧ s.mem.mu = some 1 ∧
    ((s.step [103] [47, 120] 8192 host (.step 1)).map fun r => match r.2 with | .call 1 ⟨.close _, _⟩ => true | _ => false) = some true :=
  ⟨_, _, shared_run (whole 1 (attachTo 10) ++ whole 1 (.open_ { OFID := 10 }) ++ [.begin 1 (.clunk { OFID := 10 })] ++ go 1 5),
    by decide +kernel⟩

/-- `C122_table_partial`: the step of a walk that makes the entry of a fid -/
example : ∃ ls s, SRun [103] [47, 120] 8192 host world0 ls s ∧ s.mem.files 5 = none ∧
    ((s.step [103] [47, 120] 8192 host (.step 0)).map fun r => r.1.mem.files 5) = some (some (0, 1)) :=
  ⟨_, _, shared_run (whole 0 (attachTo 0) ++ [.begin 0 (.walk { SFID := 0, NewFID := 5, Paths := [[102]] })] ++ go 0 8), by decide +kernel⟩

end Ninep.Ufs.Shared
