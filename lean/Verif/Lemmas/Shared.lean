import Verif.Ufs.Shared
import Verif.Lemmas.Tame
import Verif.Spec.Ufs
/-
What the programs of Ufs/Shared.lean do for a goroutine that nobody disturbs: the same as those of Ufs/Prog.lean.
-/

namespace Ninep.Ufs.Shared
open Spec

section
variable {ω H : Type}

/-- an operation, the mutex left out -/
def SMem.plain (g : Nat) (s : SMem H) : (c : MOp H) → SMem H × c.Ans
  | .lock => (s, ())
  | .unlock => (s, ())
  | .setVersioned => ({ s with Versioned := true }, ())
  | .setRoot p => ({ s with root := some p }, ())
  | .lookup fid => (s, s.files fid)
  | .assign fid p => ({ s with files := fun i => if i = fid then some p else s.files i }, ())
  | .delete fid => ({ s with files := fun i => if i = fid then none else s.files i }, ())
  | .alloc f => ({ s with
      heap := fun p => if p = (g, s.next g) then f else s.heap p
      next := fun i => if i = g then s.next g + 1 else s.next i }, (g, s.next g))
  | .load p x => (s, getFld (s.heap p) x)
  | .store p x v => ({ s with heap := fun q => if q = p then setFld (s.heap p) x v else s.heap q }, ())

/-- the program with the memory filled in: what is left are the host calls -/
def MProg.alone {α : Type} (g : Nat) : MProg H α → SMem H → Prog H (SMem H × α)
  | .ret a, s => .ret (s, a)
  | .panic, _ => .panic
  | .op c k, s => (k (s.plain g c).2).alone g (s.plain g c).1
  | .host c k, s => .call c fun a => (k a).alone g s

theorem alone_bind {α β : Type} (g : Nat) (p : MProg H α) (f : α → MProg H β) (s : SMem H) :
    (p.bind f).alone g s = (p.alone g s).bind fun r => (f r.2).alone g r.1 := by
  induction p generalizing s with
  | ret a => rfl
  | panic => rfl
  | op c k ih => exact ih _ _
  | host c k ih =>
    simp only [MProg.bind, MProg.alone, Prog.bind]
    congr 1
    funext a
    exact ih _ _

theorem alone_ofProg {α : Type} (g : Nat) (p : Prog H α) (s : SMem H) :
    (MProg.ofProg p).alone g s = p.bind fun a => .ret (s, a) := by
  induction p with
  | ret a => rfl
  | panic => rfl
  | call c k ih =>
    simp only [MProg.ofProg, MProg.alone, Prog.bind]
    congr 1
    funext a
    exact ih _

theorem prog_bind_assoc {α β γ : Type} (p : Prog H α) (f : α → Prog H β) (f' : β → Prog H γ) :
    (p.bind f).bind f' = p.bind fun a => (f a).bind f' := by
  induction p with
  | ret a => rfl
  | panic => rfl
  | call c k ih =>
    simp only [Prog.bind]
    congr 1
    funext a
    exact ih _

/-- two programs that make the same host calls and end in states that are related -/
inductive Rel {σ τ α β : Type} (P : σ → τ → Prop) (Q : α → β → Prop) : Prog H (σ × α) → Prog H (τ × β) → Prop
  | ret {s t a b} : P s t → Q a b → Rel P Q (.ret (s, a)) (.ret (t, b))
  | panic : Rel P Q .panic .panic
  | call {c k k'} : (∀ a, Rel P Q (k a) (k' a)) → Rel P Q (.call c k) (.call c k')

theorem Rel.bind {σ τ α β γ δ : Type} {P : σ → τ → Prop} {Q : α → β → Prop} {P' : σ → τ → Prop} {Q' : γ → δ → Prop}
    {p : Prog H (σ × α)} {q : Prog H (τ × β)} (h : Rel P Q p q) {f : σ × α → Prog H (σ × γ)} {f' : τ × β → Prog H (τ × δ)}
    (hf : ∀ s t a b, P s t → Q a b → Rel P' Q' (f (s, a)) (f' (t, b))) : Rel P' Q' (p.bind f) (q.bind f') := by
  induction h with
  | ret h1 h2 => exact hf _ _ _ _ h1 h2
  | panic => exact .panic
  | call _ ih => exact .call ih

variable (rootPath : GoString) (iounit : MaxSize)

/-- Goroutine `g` has the fids in `V` and the pointers in `O`: those of its fids are among them and different, and so are those that it
allocates, and the structures of its fids are those that the object `o` has. -/
structure Agrees (g : Nat) (O : Ptr → Prop) (V : FID → Prop) (s : SMem H) (o : Obj H) : Prop where
  own : ∀ f, V f → ∀ p, s.files f = some p → O p ∧ p.2 < s.next p.1
  mine : ∀ n, s.next g ≤ n → O (g, n)
  inj : ∀ f f', V f → V f' → ∀ p, s.files f = some p → s.files f' = some p → f = f'
  files : ∀ f, V f → o.files f = (s.files f).map s.heap
  root : o.rootPath = rootPath
  io : o.IOunit = iounit

variable {rootPath iounit} {g : Nat} {O : Ptr → Prop} {V : FID → Prop} {s : SMem H} {o : Obj H}

theorem Agrees.none (h : Agrees rootPath iounit g O V s o) {f : FID} (hf : V f) (e : s.files f = .none) : o.files f = .none := by
  rw [h.files f hf, e]; rfl

theorem Agrees.some (h : Agrees rootPath iounit g O V s o) {f : FID} (hf : V f) {p : Ptr} (e : s.files f = .some p) :
    o.files f = .some (s.heap p) := by
  rw [h.files f hf, e]; rfl

/-- assignments to the structure of a fid -/
theorem Agrees.put (h : Agrees rootPath iounit g O V s o) {f : FID} (hf : V f) {p : Ptr} (e : s.files f = .some p) {fl : File H}
    {s' : SMem H} (h1 : s'.files = s.files) (h2 : s'.next = s.next) (h3 : s'.heap p = fl) (h4 : ∀ q, q ≠ p → s'.heap q = s.heap q) :
    Agrees rootPath iounit g O V s' (o.set f fl) where
  own := by rw [h1, h2]; exact h.own
  mine := by rw [h2]; exact h.mine
  inj := by rw [h1]; exact h.inj
  files i hi := by
    simp only [State.set]
    by_cases hif : i = f
    · subst hif
      simp [h1, e, h3]
    · rw [if_neg hif, h.files i hi, h1]
      cases hp : s.files i with
      | none => rfl
      | some q =>
        have : q ≠ p := fun hq => hif (h.inj i f hi hf p (hq ▸ hp) e)
        simp [h4 q this]
  root := h.root
  io := h.io

/-- no change of the table or the structures of the fids -/
theorem Agrees.keep (h : Agrees rootPath iounit g O V s o) {s' : SMem H} (h1 : s'.files = s.files) (h2 : s'.next = s.next)
    (h3 : s'.heap = s.heap) : Agrees rootPath iounit g O V s' o where
  own := by rw [h1, h2]; exact h.own
  mine := by rw [h2]; exact h.mine
  inj := by rw [h1]; exact h.inj
  files := by rw [h1, h3]; exact h.files
  root := h.root
  io := h.io

/-- a new structure for a fid -/
theorem Agrees.new (h : Agrees rootPath iounit g O V s o) {f : FID} (fl : File H) :
    Agrees rootPath iounit g O V { s with
      files := fun i => if i = f then .some (g, s.next g) else s.files i
      heap := fun p => if p = (g, s.next g) then fl else s.heap p
      next := fun i => if i = g then s.next g + 1 else s.next i } (o.set f fl) where
  own i hi p hp := by
    dsimp only at hp ⊢
    split at hp
    · cases hp; exact ⟨h.mine _ (Nat.le_refl _), by rw [if_pos rfl]; exact Nat.lt_succ_self _⟩
    · obtain ⟨h1, h2⟩ := h.own i hi p hp
      refine ⟨h1, ?_⟩
      split
      · rename_i e; rw [e] at h2; exact Nat.lt_succ_of_lt h2
      · exact h2
  mine n hn := by
    dsimp only at hn
    rw [if_pos rfl] at hn
    exact h.mine n (Nat.le_of_succ_le hn)
  inj i j hi hj p h1 h2 := by
    dsimp only at h1 h2
    split at h1 <;> split at h2
    · simp_all
    · cases h1; exact absurd (h.own j hj _ h2).2 (Nat.lt_irrefl _)
    · cases h2; exact absurd (h.own i hi _ h1).2 (Nat.lt_irrefl _)
    · exact h.inj i j hi hj p h1 h2
  files i hi := by
    simp only [State.set]
    by_cases hif : i = f
    · subst hif; simp
    · rw [if_neg hif, if_neg hif, h.files i hi]
      cases hp : s.files i with
      | none => rfl
      | some q =>
        have : q ≠ (g, s.next g) := by
          rintro rfl
          exact absurd (h.own i hi _ hp).2 (Nat.lt_irrefl _)
        simp [this]
  root := h.root
  io := h.io

theorem Agrees.del (h : Agrees rootPath iounit g O V s o) (f : FID) :
    Agrees rootPath iounit g O V { s with files := fun i => if i = f then .none else s.files i } (o.del f) where
  own i hi p hp := by
    dsimp only at hp
    split at hp
    · cases hp
    · exact h.own i hi p hp
  mine := h.mine
  inj i j hi hj p h1 h2 := by
    dsimp only at h1 h2
    split at h1 <;> split at h2
    · cases h1
    · cases h1
    · cases h2
    · exact h.inj i j hi hj p h1 h2
  files i hi := by
    simp only [State.del]
    by_cases hif : i = f
    · subst hif; simp
    · rw [if_neg hif, if_neg hif, h.files i hi]
  root := h.root
  io := h.io

/-- what a method of the two kinds of programs has in common -/
abbrev Same {α : Type} (rootPath : GoString) (iounit : MaxSize) (g : Nat) (O : Ptr → Prop) (V : FID → Prop) (p : Prog H (SMem H × α)) (q : Prog H (Obj H × α)) : Prop :=
  Rel (Agrees rootPath iounit g O V) Eq p q

theorem same_version (h : Agrees rootPath iounit g O V s o) (n : MaxSize) (v : GoString) :
    Same rootPath iounit g O V ((mversion n v).alone g s) (pversion n v o) := by
  unfold mversion pversion
  split
  · exact .ret h rfl
  · exact .ret ⟨h.own, h.mine, h.inj, h.files, h.root, h.io⟩ rfl

theorem same_attach (h : Agrees rootPath iounit g O V s o) (fid afid : FID) (u a : GoString) :
    Same rootPath iounit g O V ((mattach rootPath fid afid u a).alone g s) (pattach fid afid u a o) := by
  unfold mattach pattach
  split
  · exact .ret h rfl
  · rw [h.root]
    refine .call fun r => ?_
    cases r with
    | error e => exact .ret h rfl
    | ok st =>
      have := h.new (f := fid) { fullName := pathJoin rootPath (pathJoin [slash] a), qid := fileInfoToQID st }
      refine .ret (this.keep rfl rfl rfl) ?_
      simp [SMem.plain, getFld]

theorem alone_withFile {α : Type} (fid : FID) (k : Ptr → MMet H α) : (withFile fid k).alone g s =
    match s.files fid with
    | none => .ret (s, .error (lit "does not exist"))
    | some p => (k p).alone g s := by
  unfold withFile
  simp only [MProg.alone, SMem.plain]
  cases s.files fid <;> rfl

/-- the common beginning of the methods -/
theorem same_withFile {α : Type} (h : Agrees rootPath iounit g O V s o) {fid : FID} (hv : V fid) {k : Ptr → MMet H α}
    {q : Obj H → Met H α} (hn : o.files fid = none → q o = retErr o (lit "does not exist"))
    (hk : ∀ p, s.files fid = some p → o.files fid = some (s.heap p) → Same rootPath iounit g O V ((k p).alone g s) (q o)) :
    Same rootPath iounit g O V ((withFile fid k).alone g s) (q o) := by
  rw [alone_withFile]
  cases e : s.files fid with
  | none =>
    rw [hn (h.none hv e)]
    exact .ret h rfl
  | some p => exact hk p e (h.some hv e)

theorem same_open (h : Agrees rootPath iounit g O V s o) {fid : FID} (hv : V fid) (m : Mode) :
    Same rootPath iounit g O V ((mopen iounit fid m).alone g s) (popen fid m o) := by
  refine same_withFile h hv (q := popen fid m) (fun e => by unfold popen; rw [e]) fun p hp hf => ?_
  unfold popen
  rw [hf]
  refine .call fun r => ?_
  cases r with
  | error e => exact .ret (h.put hv hp rfl rfl (by simp [SMem.plain, setFld]) (by simp +contextual [SMem.plain])) rfl
  | ok hd =>
    exact .ret (h.put hv hp rfl rfl (by simp [SMem.plain, setFld]) (by simp +contextual [SMem.plain]))
      (by rw [h.io]; simp [SMem.plain, getFld, setFld])

theorem same_create (h : Agrees rootPath iounit g O V s o) {fid : FID} (hv : V fid) (n : GoString) (pm : Perm) (m : Mode) :
    Same rootPath iounit g O V ((mcreate fid n pm m).alone g s) (pcreate fid n pm m o) := by
  refine same_withFile h hv (q := pcreate fid n pm m) (fun e => by unfold pcreate; rw [e]) fun p hp hf => ?_
  unfold pcreate
  rw [hf]
  simp only [MProg.alone, SMem.plain, getFld]
  cases hfile : (s.heap p).file with
  | some _ => exact .ret h rfl
  | none =>
    simp only [MProg.alone, SMem.plain, getFld, Option.isSome_none, Bool.false_eq_true, if_false]
    split
    · refine .call fun _ => .call fun r => ?_
      cases r with
      | error e => exact .ret h rfl
      | ok st => exact .ret (h.put hv hp rfl rfl (by simp [SMem.plain, setFld, hfile]) (by simp +contextual [SMem.plain])) rfl
    · refine .call fun r => ?_
      cases r with
      | error e => exact .ret h rfl
      | ok hd =>
        refine .call fun r => ?_
        cases r with
        | error e => exact .ret h rfl
        | ok st => exact .ret (h.put hv hp rfl rfl (by simp [SMem.plain, setFld]) (by simp +contextual [SMem.plain])) rfl

theorem same_stat (user : GoString) (h : Agrees rootPath iounit g O V s o) {fid : FID} (hv : V fid) :
    Same rootPath iounit g O V ((mstat user fid).alone g s) (pstat user fid o) := by
  refine same_withFile h hv (q := pstat user fid) (fun e => by unfold pstat; rw [e]) fun p hp hf => ?_
  unfold pstat
  rw [hf]
  refine .call fun r => ?_
  cases r with
  | error e => exact .ret h rfl
  | ok st => exact .ret h rfl

theorem same_write (h : Agrees rootPath iounit g O V s o) {fid : FID} (hv : V fid) (off : Offset) (b : Bytes) :
    Same rootPath iounit g O V ((mwrite fid off b).alone g s) (pwrite fid off b o) := by
  refine same_withFile h hv (q := pwrite fid off b) (fun e => by unfold pwrite; rw [e]) fun p hp hf => ?_
  unfold pwrite
  rw [hf]
  simp only [MProg.alone, SMem.plain, getFld]
  cases hfile : (s.heap p).file with
  | none => exact .ret h rfl
  | some hd =>
    simp only [MProg.alone, SMem.plain, getFld, hfile]
    refine .call fun r => ?_
    obtain ⟨n, e⟩ := r
    cases e <;> exact .ret h rfl

theorem same_readDir (user : GoString) (h : Agrees rootPath iounit g O V s o) {fid : FID} (hv : V fid) {p : Ptr} (hp : s.files fid = some p)
    {f : File H} (hb : f = s.heap p) {hd : H} (hf : f.file = some hd) (c : Count) :
    Same rootPath iounit g O V ((mreadDir user p c).alone g s) (preadDir user fid f hd c o) := by
  subst hb
  have hput : Agrees rootPath iounit g O V { s with heap := fun q => if q = p then { s.heap p with oflow := [] } else s.heap q }
      (o.set fid { s.heap p with oflow := [] }) := h.put hv hp rfl rfl (by simp) (by simp +contextual)
  unfold mreadDir preadDir
  simp only [MProg.alone, SMem.plain, getFld, setFld]
  unfold mreadDirFrom
  by_cases hc : (↑(s.heap p).oflow.length : Int) > c.toInt
  · rw [if_pos hc, if_pos hc]
    exact .ret (hput.put hv hp rfl rfl (by simp [SMem.plain, setFld]) (by simp +contextual [SMem.plain])) rfl
  · rw [if_neg hc, if_neg hc]
    simp only [MProg.alone, SMem.plain, getFld, if_true, hf]
    refine .call fun r => ?_
    simp only [hf] at hput
    cases r with
    | eof => exact .ret hput rfl
    | fail e => exact .ret hput rfl
    | entry st =>
      dsimp only
      by_cases hl : (↑(marshaldir (Buffer.ofBytes (s.heap p).oflow) (dirTo9p2000Dir user st)).bytes.length : Int) > c.toInt
      · rw [if_pos hl, if_pos hl]
        exact .ret hput rfl
      · rw [if_neg hl, if_neg hl]
        exact .ret hput rfl

theorem same_read (user : GoString) (h : Agrees rootPath iounit g O V s o) {fid : FID} (hv : V fid) (off : Offset) (c : Count) :
    Same rootPath iounit g O V ((mread user fid off c).alone g s) (pread user fid off c o) := by
  refine same_withFile h hv (q := pread user fid off c) (fun e => by unfold pread; rw [e]) fun p hp hf => ?_
  unfold pread
  rw [hf]
  simp only [MProg.alone, SMem.plain, getFld]
  cases hfile : (s.heap p).file with
  | none => exact .ret h rfl
  | some hd =>
    simp only [MProg.alone, SMem.plain, getFld]
    unfold mreadAs
    by_cases hq : (s.heap p).qid.Typ &&& QTDIR ≠ 0
    · rw [if_pos hq, if_pos hq]
      by_cases ho : off = 0
      · rw [if_pos ho, if_pos ho]
        have hput : Agrees rootPath iounit g O V { s with heap := fun q => if q = p then { s.heap p with oflow := [] } else s.heap q }
            (o.set fid { s.heap p with oflow := [] }) := h.put hv hp rfl rfl (by simp) (by simp +contextual)
        simp only [MProg.alone, SMem.plain, getFld, setFld, if_true, hfile]
        refine .call fun r => ?_
        simp only [hfile] at hput
        cases r with
        | some e => exact .ret hput rfl
        | none => exact same_readDir user hput hv hp (by simp) rfl c
      · rw [if_neg ho, if_neg ho]
        exact same_readDir user h hv hp rfl hfile c
    · rw [if_neg hq, if_neg hq]
      by_cases hc : c.toInt < 0
      · rw [if_pos hc, if_pos hc]
        exact .panic
      · rw [if_neg hc, if_neg hc]
        simp only [MProg.alone, SMem.plain, getFld, hfile]
        refine .call fun r => ?_
        obtain ⟨d, e⟩ := r
        cases e <;> exact .ret h rfl

theorem same_clunkFile (h : Agrees rootPath iounit g O V s o) {fid : FID} :
    match s.files fid with
    | none => (mclunkFile fid).alone g s = .ret (s, .error (lit "does not exist"))
    | some p => Rel (fun s' o' => Agrees rootPath iounit g O V s' o' ∧ s'.heap = s.heap) (fun a (_ : Unit) => a = .ok p)
        ((mclunkFile fid).alone g s) ((pclunkFile fid o (s.heap p)).bind fun o => .ret (o, ())) := by
  unfold mclunkFile
  simp only [MProg.alone, SMem.plain]
  cases e : s.files fid with
  | none => rfl
  | some p =>
    simp only [MProg.alone, SMem.plain, getFld]
    unfold pclunkFile
    cases hf : (s.heap p).file with
    | none => exact .ret ⟨h.del fid, rfl⟩ rfl
    | some hd =>
      simp only [MProg.alone, SMem.plain, getFld, hf]
      refine .call fun r => ?_
      cases r with
      | none => exact .ret ⟨h.del fid, rfl⟩ rfl
      | some _ => exact .ret ⟨h.del fid, rfl⟩ rfl

theorem same_clunk (h : Agrees rootPath iounit g O V s o) {fid : FID} (hv : V fid) :
    Same rootPath iounit g O V ((mclunk fid).alone g s) (pclunk fid o) := by
  have hc := same_clunkFile h (fid := fid)
  unfold mclunk pclunk
  rw [alone_bind]
  cases e : s.files fid with
  | none =>
    rw [e] at hc
    rw [hc, h.none hv e]
    exact .ret h rfl
  | some p =>
    rw [e] at hc
    rw [h.some hv e]
    dsimp only at hc ⊢
    have := hc.bind (P' := Agrees rootPath iounit g O V) (Q' := Eq)
      (f := fun r => MProg.alone g (match r.2 with | .error e => mErr e | .ok _ => mOk ()) r.1)
      (f' := fun r => retOk r.1 ()) (by
        rintro s' o' a b h1 rfl
        exact .ret h1.1 rfl)
    rw [prog_bind_assoc] at this
    exact this

theorem same_remove (h : Agrees rootPath iounit g O V s o) {fid : FID} (hv : V fid) :
    Same rootPath iounit g O V ((mremove fid).alone g s) (premove fid o) := by
  have hc := same_clunkFile h (fid := fid)
  unfold mremove premove
  rw [alone_bind]
  cases e : s.files fid with
  | none =>
    rw [e] at hc
    rw [hc, h.none hv e]
    exact .ret h rfl
  | some p =>
    rw [e] at hc
    rw [h.some hv e]
    dsimp only at hc ⊢
    have := hc.bind (P' := Agrees rootPath iounit g O V) (Q' := Eq)
      (f := fun r => MProg.alone g (match r.2 with
        | .error e => mErr e
        | .ok p =>
          .op (.load p .name) fun n =>
          .host (.remove n) fun r =>
          match r with
          | none => mOk ()
          | some e => mErr e) r.1)
      (f' := fun r => .call (.remove (s.heap p).fullName) fun a =>
        match a with
        | none => retOk r.1 ()
        | some e => retErr r.1 e) (by
        rintro s' o' a b h1 rfl
        simp only [MProg.alone, SMem.plain, getFld]
        rw [h1.2]
        refine .call fun r => ?_
        cases r <;> exact .ret h1.1 rfl)
    rw [prog_bind_assoc] at this
    refine Eq.mp ?_ this
    congr 1
    congr 1
    funext o'
    simp only [Prog.bind]
    congr 1
    funext r
    cases r <;> rfl

theorem same_walk (h : Agrees rootPath iounit g O V s o) {fid newfid : FID} (hv : V fid) (hn : V newfid) (ns : List GoString) :
    Same rootPath iounit g O V ((mwalk fid newfid ns).alone g s) (pwalk fid newfid ns o) := by
  refine same_withFile h hv (q := pwalk fid newfid ns) (fun e => by unfold pwalk; rw [e]) fun p hp hf => ?_
  unfold pwalk
  rw [hf]
  dsimp only
  by_cases hns : ns = []
  · rw [if_pos hns, if_pos hns]
    simp only [MProg.alone, SMem.plain]
    cases e : s.files newfid with
    | some q =>
      rw [h.some hn e]
      exact .ret h rfl
    | none =>
      rw [h.none hn e]
      exact .ret (h.new (f := newfid) (s.heap p)) rfl
  · rw [if_neg hns, if_neg hns]
    simp only [MProg.alone, SMem.plain, getFld]
    rw [alone_bind, alone_ofProg, prog_bind_assoc]
    induction pwalkLoop (s.heap p).fullName ns with
    | panic => exact .panic
    | call c k ih => exact .call ih
    | ret r =>
      obtain ⟨q, r⟩ := r
      simp only [Prog.bind]
      cases r with
      | none =>
        dsimp only
        by_cases hq : q = []
        · rw [if_pos hq, if_pos hq]
          exact .ret h rfl
        · rw [if_neg hq, if_neg hq]
          exact .ret h rfl
      | some path =>
        simp only [MProg.alone, SMem.plain]
        by_cases hne : fid ≠ newfid
        · rw [if_pos hne]
          simp only [MProg.alone, SMem.plain]
          cases e : s.files newfid with
          | some q' =>
            rw [if_pos ⟨hne, by rw [h.some hn e]; rfl⟩]
            exact .ret h rfl
          | none =>
            rw [if_neg (by rw [h.none hn e]; simp)]
            exact .ret (h.new (f := newfid) _) rfl
        · rw [if_neg hne, if_neg (fun hh => hne hh.1)]
          exact .ret (h.new (f := newfid) _) rfl

/-- in the middle of a wstat -/
structure Wst (rootPath : GoString) (iounit : MaxSize) (g : Nat) (O : Ptr → Prop) (V : FID → Prop) (fid : FID) (p : Ptr) (f : File H) (n : GoString)
    (s : SMem H) (o : Obj H) : Prop where
  ag : Agrees rootPath iounit g O V s o
  tab : s.files fid = some p
  at_ : s.heap p = { f with fullName := n }

section
variable {fid : FID} {p : Ptr} {n : GoString} {f : File H} {k : MProg H (Option GoString)} {k' : Obj H → Prog H (Obj H × Option GoString)}

theorem same_wstatMode {dir : Dir} (h : Wst rootPath iounit g O V fid p f f.fullName s o)
    (hk : ∀ s o, Wst rootPath iounit g O V fid p f f.fullName s o → Same rootPath iounit g O V (k.alone g s) (k' o)) :
    Same rootPath iounit g O V ((mAndThen (mwstatMode p dir) k).alone g s) (pAndThen (pwstatMode f dir o) k') := by
  unfold mAndThen pAndThen mwstatMode pwstatMode
  split
  · simp only [MProg.bind, MProg.alone, SMem.plain, getFld, Prog.bind]
    rw [h.at_]
    refine .call fun e => ?_
    cases e with
    | none => exact hk _ _ h
    | some e => exact .ret h.ag rfl
  · exact hk _ _ h

theorem same_wstatUser {dir : Dir} (h : Wst rootPath iounit g O V fid p f n s o)
    (hk : ∀ s o, Wst rootPath iounit g O V fid p f n s o → Same rootPath iounit g O V (k.alone g s) (k' o)) :
    Same rootPath iounit g O V ((mAndThen (mwstatUser dir) k).alone g s) (pAndThen (pwstatUser dir o) k') := by
  unfold mAndThen pAndThen mwstatUser pwstatUser
  split
  · exact .ret h.ag rfl
  · exact hk _ _ h

theorem same_wstatName (hv : V fid) {dir : Dir} (h : Wst rootPath iounit g O V fid p f f.fullName s o)
    (hk : ∀ s o, Wst rootPath iounit g O V fid p f
      (if dir.Name ≠ [] then renameTo rootPath f.fullName dir.Name else f.fullName) s o →
      Same rootPath iounit g O V (k.alone g s) (k' o)) :
    Same rootPath iounit g O V ((mAndThen (mwstatName rootPath p dir) k).alone g s) (pAndThen (pwstatName fid f dir o) k') := by
  unfold mAndThen pAndThen mwstatName pwstatName
  split
  · rename_i hd
    rw [if_pos hd] at hk
    simp only [MProg.bind, MProg.alone, SMem.plain, getFld, Prog.bind]
    rw [h.ag.root, h.at_]
    refine .call fun r => ?_
    cases hr : isDirAns r with
    | true => exact .ret h.ag rfl
    | false =>
      simp only [Bool.false_eq_true, if_false, MProg.bind, MProg.alone, SMem.plain, getFld, Prog.bind]
      rw [h.at_]
      refine .call fun r => ?_
      cases r with
      | some e => exact .ret h.ag rfl
      | none =>
        exact hk _ _ ⟨h.ag.put hv h.tab rfl rfl (by simp [SMem.plain, setFld, h.at_]) (by simp +contextual [SMem.plain]),
          h.tab, by simp [SMem.plain, setFld, h.at_]⟩
  · rename_i hd
    rw [if_neg hd] at hk
    exact hk _ _ h

theorem same_wstatLength {dir : Dir} (h : Wst rootPath iounit g O V fid p f n s o)
    (hk : ∀ s o, Wst rootPath iounit g O V fid p f n s o → Same rootPath iounit g O V (k.alone g s) (k' o)) :
    Same rootPath iounit g O V ((mAndThen (mwstatLength p dir) k).alone g s) (pAndThen (pwstatLength n dir o) k') := by
  unfold mAndThen pAndThen mwstatLength pwstatLength
  split
  · simp only [MProg.bind, MProg.alone, SMem.plain, getFld, Prog.bind]
    rw [h.at_]
    refine .call fun e => ?_
    cases e with
    | none => exact hk _ _ h
    | some e => exact .ret h.ag rfl
  · exact hk _ _ h

theorem same_wstatTimes {dir : Dir} (h : Wst rootPath iounit g O V fid p f n s o)
    (hk : ∀ s o, Wst rootPath iounit g O V fid p f n s o → Same rootPath iounit g O V (k.alone g s) (k' o)) :
    Same rootPath iounit g O V ((mAndThen (mwstatTimes p dir) k).alone g s) (pAndThen (pwstatTimes n dir o) k') := by
  unfold mAndThen pAndThen mwstatTimes pwstatTimes
  split
  · split
    · simp only [MProg.bind, MProg.alone, SMem.plain, getFld, Prog.bind]
      rw [h.at_]
      refine .call fun r => ?_
      cases r with
      | error e => exact .ret h.ag rfl
      | ok st =>
        simp only [MProg.bind, MProg.alone, SMem.plain, getFld, Prog.bind]
        rw [h.at_]
        refine .call fun e => ?_
        cases e with
        | none => exact hk _ _ h
        | some e => exact .ret h.ag rfl
    · simp only [MProg.bind, MProg.alone, SMem.plain, getFld, Prog.bind]
      rw [h.at_]
      refine .call fun e => ?_
      cases e with
      | none => exact hk _ _ h
      | some e => exact .ret h.ag rfl
  · exact hk _ _ h

theorem same_wstatSync {dir : Dir} (h : Wst rootPath iounit g O V fid p f n s o) :
    Same rootPath iounit g O V ((mwstatSync p dir).alone g s) (pwstatSync f dir o) := by
  unfold mwstatSync pwstatSync
  cases hw : wstatChanges dir with
  | true =>
    cases hf : f.file with
    | none => exact .ret h.ag rfl
    | some hd => exact .ret h.ag rfl
  | false =>
    have h3 : (s.heap p).file = f.file := by rw [h.at_]
    simp only [MProg.alone, SMem.plain, getFld, Bool.false_eq_true, if_false, h3]
    cases hf : f.file with
    | none => exact .ret h.ag rfl
    | some hd =>
      rw [hf] at h3
      simp only [MProg.alone, SMem.plain, getFld, h3]
      exact .call fun _ => .ret h.ag rfl

end

theorem same_wstat (h : Agrees rootPath iounit g O V s o) {fid : FID} (hv : V fid) (b : Bytes) :
    Same rootPath iounit g O V ((mwstat rootPath fid b).alone g s) (pwstat fid b o) := by
  refine same_withFile h hv (q := pwstat fid b) (fun e => by unfold pwstat; rw [e]) fun p hp hf => ?_
  unfold pwstat
  rw [hf]
  dsimp only
  cases unmarshaldir (Buffer.ofBytes b) with
  | panic => exact .panic
  | done dir b' e x =>
    cases e with
    | some e => exact .ret h rfl
    | none =>
      dsimp only
      rw [alone_bind]
      have hpath : wstatPath (s.heap p) dir o =
          if dir.Name ≠ [] then renameTo rootPath (s.heap p).fullName dir.Name else (s.heap p).fullName := by
        unfold wstatPath
        rw [h.root]
      rw [hpath]
      refine Rel.bind (P := Agrees rootPath iounit g O V) (Q := Eq)
        (same_wstatMode (fid := fid) ⟨h, hp, rfl⟩ fun s o h => same_wstatUser h fun s o h => same_wstatName hv h fun s o h =>
          same_wstatLength h fun s o h => same_wstatTimes h fun s o h => same_wstatSync h) ?_
      rintro s' o' a _ h1 rfl
      cases a <;> exact .ret h1 rfl

theorem same_asReply {α : Type} {p : MMet H α} {q : Met H α} (f : α → RMsg) (h : Same rootPath iounit g O V (p.alone g s) q) :
    Same rootPath iounit g O V ((mAsReply f p).alone g s) (asReply f q) := by
  unfold mAsReply asReply
  rw [alone_bind]
  refine Rel.bind h ?_
  rintro s' o' a _ h1 rfl
  cases a <;> exact .ret h1 rfl

/-- Undisturbed, a goroutine does what Ufs/Prog.lean says. -/
theorem same_call (user : GoString) (h : Agrees rootPath iounit g O V s o) (m : TMsg) (hv : ∀ f ∈ Spec.fids m, V f) :
    Same rootPath iounit g O V ((mcall user rootPath iounit m).alone g s) (pcall user m o) := by
  cases m <;> unfold mcall pcall <;> refine same_asReply _ ?_
  · exact same_version h _ _
  · exact same_attach h _ _ _ _
  · exact .ret h rfl
  · exact same_walk h (hv _ (by simp [Spec.fids])) (hv _ (by simp [Spec.fids])) _
  · exact same_open h (hv _ (by simp [Spec.fids])) _
  · exact same_create h (hv _ (by simp [Spec.fids])) _ _ _
  · exact same_stat user h (hv _ (by simp [Spec.fids]))
  · exact same_wstat h (hv _ (by simp [Spec.fids])) _
  · exact same_clunk h (hv _ (by simp [Spec.fids]))
  · exact same_remove h (hv _ (by simp [Spec.fids]))
  · exact same_read user h (hv _ (by simp [Spec.fids])) _ _
  · exact same_write h (hv _ (by simp [Spec.fids])) _ _

end
end Ninep.Ufs.Shared
