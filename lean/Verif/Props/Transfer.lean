import Verif.Props.Job
import Verif.Props.Copy
import Verif.Props.Follow

set_option linter.unusedSimpArgs false
set_option linter.unusedVariables false

/-!
# Files that go from one client to another (C99)
-/

namespace Ninep.Client
open Spec Ufs
variable {ω H α : Type}

/-! ### programs with others around -/

/-- what the program `p` comes to satisfies `Q`, whatever others do before, between and after its calls of the
operating system, as long as their doings are in `R` -/
def Sure {A : Type} (host : Host ω H) (R : ω → ω → Prop) (Q : A → ω → Prop) : Prog H A → ω → Prop
  | .ret a, w => ∀ w', R w w' → Q a w'
  | .panic, _ => True
  | .call c k, w => ∀ w', R w w' → Sure host R Q (k (host.exec c w').2) (host.exec c w').1

theorem Sure.later {A : Type} {host : Host ω H} {R : ω → ω → Prop} (tr : ∀ {a b c}, R a b → R b c → R a c) {Q : A → ω → Prop} {p : Prog H A} {w w' : ω}
    (h : Sure host R Q p w) (hr : R w w') : Sure host R Q p w' := by
  cases p with
  | ret a => exact fun w2 h2 => h w2 (tr hr h2)
  | panic => trivial
  | call c k => exact fun w2 h2 => h w2 (tr hr h2)

theorem Sure.bind {A B : Type} {host : Host ω H} {R : ω → ω → Prop} (rf : ∀ a, R a a) {Q : B → ω → Prop} {p : Prog H A} {f : A → Prog H B} {w : ω}
    (h : Sure host R (fun a w => Sure host R Q (f a) w) p w) : Sure host R Q (p.bind f) w := by
  induction p generalizing w with
  | ret a => exact h w (rf w)
  | panic => trivial
  | call c k ih => exact fun w' h' => ih _ (h w' h')

theorem Sure.imp {A : Type} {host : Host ω H} {R : ω → ω → Prop} {Q Q' : A → ω → Prop} (hq : ∀ a w, Q a w → Q' a w) {p : Prog H A} {w : ω}
    (h : Sure host R Q p w) : Sure host R Q' p w := by
  induction p generalizing w with
  | ret a => exact fun w' h' => hq _ _ (h w' h')
  | panic => trivial
  | call c k ih => exact fun w' h' => ih _ (h w' h')

/-- what happened, seen from client `i`: what was not done for it is in `R` -/
inductive Gently (host : Host ω H) (i : Nat) (R : ω → ω → Prop) (w : ω) : List (BLabel ω H) → ω → Prop
  | nil : Gently host i R w [] w
  | own {ls w1} (x : HCall H) : Gently host i R w ls w1 → Gently host i R w (ls ++ [.call i ⟨x, (host.exec x w1).2⟩]) (host.exec x w1).1
  | call {ls w1} (j : Nat) (x : HCall H) : j ≠ i → R w1 (host.exec x w1).1 → Gently host i R w ls w1 →
      Gently host i R w (ls ++ [.call j ⟨x, (host.exec x w1).2⟩]) (host.exec x w1).1
  | other {ls w1} (w2 : ω) : R w1 w2 → Gently host i R w ls w1 → Gently host i R w (ls ++ [.other w2]) w2

theorem sure_path {A : Type} {host : Host ω H} {i : Nat} {R : ω → ω → Prop} (rf : ∀ a, R a a) (tr : ∀ {a b c}, R a b → R b c → R a c)
    {Q : A → ω → Prop} {p q : Prog H A} {w w' : ω} {L : List (BLabel ω H)} (hg : Gently host i R w L w') (hp : p.Path (hostCalls i L) q)
    (h : Sure host R Q p w) : Sure host R Q q w' := by
  induction hg generalizing q with
  | nil => rw [← path_none hp]; exact h
  | @own ls w1 x _ ih =>
    rw [hostCalls_append] at hp
    simp only [hostCalls, if_true] at hp
    obtain ⟨k, h1, rfl⟩ := path_split hp
    exact ih h1 w1 (rf w1)
  | call j x hj hr _ ih =>
    rw [hostCalls_append] at hp
    simp only [hostCalls, if_neg hj, List.append_nil] at hp
    exact (ih hp).later @tr hr
  | other w2 hr _ ih =>
    rw [hostCalls_append] at hp
    simp only [hostCalls, List.append_nil] at hp
    exact (ih hp).later @tr hr

/-- an execution in which what is not done for client `i` is in `R` -/
inductive GentleExec (host : Host ω H) (user : GoString) (i : Nat) (R : ω → ω → Prop) : Shop ω H α → List (JobLabel ω H) → Shop ω H α → Prop
  | refl (n : Shop ω H α) : GentleExec host user i R n [] n
  | step {n n' n'' : Shop ω H α} {ls : List (JobLabel ω H)} {l : JobLabel ω H} : GentleExec host user i R n ls n' → JobStep host user l n' n'' →
      (R n'.site.world n''.site.world ∨ ∃ e, l = .site (.call i e)) → GentleExec host user i R n (ls ++ [l]) n''

theorem GentleExec.exec {host : Host ω H} {user : GoString} {i : Nat} {R : ω → ω → Prop} {n n' : Shop ω H α} {ls : List (JobLabel ω H)}
    (h : GentleExec host user i R n ls n') : JobExec host user n ls n' := by
  induction h with
  | refl => exact .refl _
  | step _ hs _ ih => exact ih.step hs

theorem GentleExec.gently {host : Host ω H} {user : GoString} {i : Nat} {R : ω → ω → Prop} {n n' : Shop ω H α} {ls : List (JobLabel ω H)}
    (h : GentleExec host user i R n ls n') : Gently host i R n.site.world (ls.flatMap JobLabel.outside) n'.site.world := by
  induction h with
  | refl => exact .nil
  | @step n1 n2 ls l _ hs hr ih =>
    rw [List.flatMap_append]
    have site {l : SiteLabel ω H} {s' : Site ω H} (h : SiteStep host user l n1.site s')
        (hr : R n1.site.world s'.world ∨ ∃ e, l = .call i e) :
        Gently host i R n.site.world (ls.flatMap JobLabel.outside ++ l.outside) s'.world := by
      cases h with
      | call _ j x k =>
        by_cases hj : j = i
        · subst hj; exact .own x ih
        · rcases hr with hr | ⟨e, he⟩
          · exact .call j x hj hr ih
          · cases he; exact absurd rfl hj
      | other _ w2 =>
        rcases hr with hr | ⟨e, he⟩
        · exact .other w2 hr ih
        · cases he
      | _ => simpa [SiteLabel.outside, Site.setLink] using ih
    cases hs with
    | site _ l s' hne hst =>
      simpa [JobLabel.outside, JobLabel.sites] using site hst (hr.imp id fun ⟨e, he⟩ => ⟨e, by cases he; rfl⟩)
    | make _ j c m k s' _ _ hst _ =>
      have : R n1.site.world s'.world ∨ ∃ e : Ev H, SiteLabel.link (ω := ω) j (.step .call) = .call i e := by
        rcases hr with hr | ⟨e, he⟩
        · exact .inl hr
        · cases he
      simpa [JobLabel.outside, JobLabel.sites] using site hst this
    | get => simpa [JobLabel.outside, JobLabel.sites] using ih

theorem site_not_begun {user root : GoString} {ls : List (BLabel ω H)} {n : Site ω H} {h : Nat → List (Deed H × Tag)} {cur : Nat → List (Ev H)}
    (hi : SiteInv user root ls n h cur) {i : Nat} (hid : ∀ c, (n.link i).w.cl.phase c = .idle) : (n.link i).w.srv.ns = newObj root := by
  have hr : h i = [] := by
    match hx : h i with
    | [] => rfl
    | a :: t =>
      have := hi.inv.msg i a (by rw [hx]; simp)
      have h2 := (hi.inv.inv i).idle a.1.call (hid _)
      rw [h2] at this
      cases this
  have hp := hi.inv.played i
  rw [hr] at hp
  generalize hz : List.map Prod.fst ([] : List (Deed H × Tag)) = zs at hp
  have hp : Played user (newObj root) zs (n.link i).w.srv.ns := hp
  generalize (n.link i).w.srv.ns = o at hp ⊢
  generalize newObj root = o0 at hp ⊢
  cases hp with
  | nil => rfl
  | ok => simp at hz
  | err => simp at hz

/-- a client that has made no calls: its program is at the start, and so is its file server -/
theorem not_begun {host : Host ω H} (hh : host.Short) {user : GoString} (hu : user.length < 2 ^ 13) {root : GoString} {w : ω}
    {jobs : Nat → Job α} (hj : ∀ i, (jobs i).Proper) {n : Shop ω H α} {ls : List (JobLabel ω H)}
    (he : JobExec host user (Shop.start root w jobs) ls n) (hl : ∀ l ∈ ls, l.Clean) {i : Nat} (hid : ∀ c, (n.site.link i).w.cl.phase c = .idle) :
    n.stage i = .next (jobs i) ∧ (n.site.link i).w.srv.ns = newObj root := by
  obtain ⟨h1, h2, h3, h4⟩ := job_exec hh hu hj he hl
  obtain ⟨bls, h, cur, -, g3⟩ := site_reached hh hu h1 h2 h3
  refine ⟨?_, site_not_begun g3 hid⟩
  obtain ⟨xs, hx⟩ := h4 i
  have hno : ∀ c, c ∉ xs.map Prod.fst ++ (n.stage i).pend := fun c hc => (hx.made c).2 hc (hid c)
  cases xs with
  | cons x xs => exact absurd (by simp) (hno x.1)
  | nil =>
    cases hst : n.stage i with
    | waits c m k => rw [hst] at hno; exact absurd (by simp [JobAt.pend]) (hno c)
    | next j =>
      rw [hst] at hx
      rw [hx.after.none.symm]
      rfl

/-- A program run by client `i` from its beginning at `n` to its end at `n'`: if the program, run on a new file server, is
sure to come to `Q`, then it has. -/
theorem job_sure {host : Host ω H} (hh : host.Short) {user : GoString} (hu : user.length < 2 ^ 13) {root : GoString} {w : ω}
    {jobs : Nat → Job α} (hj : ∀ i, (jobs i).Proper) {n n' : Shop ω H α} {ls ls' : List (JobLabel ω H)}
    (he : JobExec host user (Shop.start root w jobs) ls n) {i : Nat} {R : ω → ω → Prop} (rf : ∀ a, R a a) (tr : ∀ {a b c}, R a b → R b c → R a c)
    (he' : GentleExec host user i R n ls' n') (hl : ∀ l ∈ ls ++ ls', l.Clean) (hid : ∀ c, (n.site.link i).w.cl.phase c = .idle)
    {a : α} (ha : n'.stage i = .next (.ret a)) {Q : α → ω → Prop}
    (hq : Sure host R (fun x w => Q x.2 w) ((jobs i).prog user (newObj root)) n.site.world) : Q a n'.site.world := by
  obtain ⟨h1, h2⟩ := not_begun hh hu hj he (fun l hl' => hl l (by simp [hl'])) hid
  have p1 := job_path hh hu hj he (fun l hl' => hl l (by simp [hl'])) h1
  have p2 := job_path hh hu hj (he.trans he'.exec) hl ha
  rw [List.flatMap_append, hostCalls_append] at p2
  have p3 := path_rest p1 p2
  rw [h2] at p3
  exact sure_path rf @tr he'.gently p3 hq _ (rf _)



/-! ### programs that read and write a file -/

/-- what comes of a program that reads or writes a file -/
inductive Got where
  /-- everything has been read or written -/
  | whole (d : Bytes)
  /-- the file is longer than the program was willing to read -/
  | part
  /-- a call has failed, or something is wrong with what it returned -/
  | failed
deriving DecidableEq

/-- make a call, and go on if it returns no error -/
def Job.ok (m : TMsg) (k : RMsg → Job Got) : Job Got := .call m fun x =>
  match x with
  | .ret r none => k r
  | _ => .ret .failed

/-- read `c` bytes at a time until nothing comes, at most `n` times; then clunk the fid -/
def readAll (fid : FID) (c : Count) : Nat → Offset → Bytes → Job Got
  | 0, _, _ => .ret .part
  | n + 1, off, acc => Job.ok (.read ⟨fid, off, c⟩) fun r =>
    match r with
    | .read q => if q.Data = [] then Job.ok (.clunk ⟨fid⟩) fun _ => .ret (.whole acc)
        else readAll fid c n (off + UInt64.ofNat q.Data.length) (acc ++ q.Data)
    | _ => .ret .failed

/-- write the pieces `bs` one after the other; then clunk the fid -/
def writeAll (fid : FID) : List Bytes → Offset → Bytes → Job Got
  | [], _, acc => Job.ok (.clunk ⟨fid⟩) fun _ => .ret (.whole acc)
  | b :: bs, off, acc => Job.ok (.write ⟨fid, off, b⟩) fun r =>
    match r with
    | .write q => if q.RLen = Int32.ofNat b.length then writeAll fid bs (off + UInt64.ofNat b.length) (acc ++ b) else .ret .failed
    | _ => .ret .failed

/-- not a directory -/
def isPlain (q : QID) : Bool := q.Typ &&& QTDIR == 0

/-- negotiate the version, attach, walk to the file and open it; go on if it is of the right kind -/
def openAt (path : List GoString) (mode : Mode) (good : QID → Bool) (k : Job Got) : Job Got :=
  Job.ok (.version ⟨8192, lit "9P2000"⟩) fun _ =>
  Job.ok (.attach ⟨0, NOFID, [], []⟩) fun _ =>
  Job.ok (.walk ⟨0, 1, path⟩) fun r =>
  match r with
  | .walk q =>
    if q.QIDs.length = path.length then
      Job.ok (.open_ ⟨1, mode⟩) fun r =>
      match r with
      | .open_ q => if good q.OQID then k else .ret .failed
      | _ => .ret .failed
    else .ret .failed
  | _ => .ret .failed

/-- read a file, `c` bytes at a time and at most `n` times -/
def fetch (path : List GoString) (c : Count) (n : Nat) : Job Got := openAt path 0 isPlain (readAll 1 c n 0 [])

/-- write a file from the start, after it has been emptied (OWRITE|OTRUNC) -/
def store (path : List GoString) (bs : List Bytes) : Job Got := openAt path 17 isPlain (writeAll 1 bs 0 [])

/-! ### they are proper -/

theorem Job.ok_all {P : TMsg → Prop} {m : TMsg} {k : RMsg → Job Got} (hm : P m) (hk : ∀ r, (k r).All P) : (Job.ok m k).All P := by
  refine ⟨hm, fun x => ?_⟩
  cases x with
  | panic => trivial
  | ret r e => cases e with
    | none => exact hk r
    | some e => trivial

/-- what is asked of the calls of a program -/
def Sendable (m : TMsg) : Prop := Ordinary m ∧ m.Fits ∧ ∀ t, (m.packet t).length < 2 ^ 32

theorem readAll_all (fid : FID) {c : Count} (hc : 0 ≤ c.toInt) (n : Nat) (off : Offset) (acc : Bytes) : (readAll fid c n off acc).All Sendable := by
  induction n generalizing off acc with
  | zero => trivial
  | succ n ih =>
    refine Job.ok_all ⟨hc, trivial, short_packet (by simp [TMsg.fields])⟩ fun r => ?_
    cases r <;> first | trivial | skip
    dsimp only
    split
    · exact Job.ok_all ⟨trivial, trivial, short_packet (by simp [TMsg.fields])⟩ fun _ => trivial
    · exact ih _ _

theorem writeAll_all (fid : FID) {bs : List Bytes} (hb : ∀ b ∈ bs, b.length < 2 ^ 31) (off : Offset) (acc : Bytes) : (writeAll fid bs off acc).All Sendable := by
  induction bs generalizing off acc with
  | nil => exact Job.ok_all ⟨trivial, trivial, short_packet (by simp [TMsg.fields])⟩ fun _ => trivial
  | cons b bs ih =>
    have h1 := hb b (by simp)
    refine Job.ok_all ⟨trivial, ?_, fun t => ?_⟩ fun r => ?_
    · show b.length < 2 ^ 32
      omega
    · simp [TMsg.packet, Spec.packet, TMsg.body, TMsg.fields]
      omega
    · cases r <;> first | trivial | skip
      dsimp only
      split
      · exact ih (fun b h => hb b (by simp [h])) _ _
      · trivial

/-- the elements of the path can be sent -/
def GoodPath (path : List GoString) : Prop := (path.map List.length).sum + path.length ≤ 60000

theorem mem_le_sum {l : List Nat} {a : Nat} (h : a ∈ l) : a ≤ l.sum := by
  induction l with
  | nil => cases h
  | cons b l ih =>
    rcases List.mem_cons.1 h with rfl | h
    · simp
    · have := ih h; simp; omega

theorem openAt_proper {path : List GoString} (hp : GoodPath path) (mode : Mode) (good : QID → Bool) {k : Job Got} (hk : k.All Sendable) : (openAt path mode good k).Proper := by
  unfold GoodPath at hp
  have e1 : (lit "9P2000").length = 6 := by decide
  refine ⟨⟨_, rfl⟩, ?_⟩
  refine Job.ok_all ⟨by simp [Ordinary, e1], by simp [TMsg.Fits, e1], short_packet (by decide)⟩ fun _ => ?_
  refine Job.ok_all ⟨trivial, by simp [TMsg.Fits], short_packet (by decide)⟩ fun _ => ?_
  refine Job.ok_all ⟨show (path.map List.length).sum + path.length ≤ 65000 by omega, ⟨by dsimp only; omega, fun s (hs : s ∈ path) => ?_⟩, fun t => ?_⟩ fun r => ?_
  · have := mem_le_sum (List.mem_map_of_mem (f := List.length) hs)
    omega
  · have hlen : ∀ l : List GoString, (l.map fun s => (Spec.str s).length).sum = (l.map List.length).sum + 2 * l.length := by
      intro l
      induction l with
      | nil => rfl
      | cons a l ih => rw [List.map_cons, List.sum_cons, ih]; simp [Spec.str]; omega
    have := hlen path
    simp only [TMsg.packet, Spec.packet, TMsg.body, TMsg.fields, List.length_append, List.length_flatten, List.map_map, Function.comp_def, le_length]
    omega
  · cases r <;> first | trivial | skip
    dsimp only
    split
    · refine Job.ok_all ⟨trivial, trivial, short_packet (by simp [TMsg.fields])⟩ fun r => ?_
      cases r <;> first | trivial | skip
      dsimp only
      split
      · exact hk
      · trivial
    · trivial

theorem fetch_proper {path : List GoString} (hp : GoodPath path) {c : Count} (hc : 0 ≤ c.toInt) (n : Nat) : (fetch path c n).Proper :=
  openAt_proper hp _ _ (readAll_all _ hc _ _ _)

theorem store_proper {path : List GoString} (hp : GoodPath path) {bs : List Bytes} (hb : ∀ b ∈ bs, b.length < 2 ^ 31) : (store path bs).Proper :=
  openAt_proper hp _ _ (writeAll_all _ hb _ _)

/-! ### what they come to -/

/-- the rule for `Job.ok` -/
theorem sure_ok {A : Type} {host : Host ω H} {R : ω → ω → Prop} (rf : ∀ a, R a a) (tr : ∀ {a b c}, R a b → R b c → R a c)
    {user : GoString} {Q : Got → ω → Prop} {m : TMsg} {k : RMsg → Job Got}
    {o : Obj H} {w : ω} (f : A → RMsg) (p : Met H A) (hm : pcall user m o = asReply f p)
    (h : Sure host R (fun x w => match x with
      | (o', .ok a) => Sure host R (fun x w => Q x.2 w) ((k (f a)).prog user o') w
      | (_, .error _) => ∀ w', R w w' → Q .failed w') p w) :
    Sure host R (fun x w => Q x.2 w) ((Job.ok m k).prog user o) w := by
  unfold Job.ok
  simp only [Job.prog]
  refine Sure.bind rf ?_
  rw [hm]
  unfold asReply
  refine Sure.bind rf (h.imp fun x w hx => ?_)
  obtain ⟨o', r⟩ := x
  cases r with
  | ok a => exact fun w' hw => (hx.later @tr hw : Sure _ _ _ _ w')
  | error e => exact fun w' hw w'' hw' => hx w'' (tr hw hw')

theorem sure_call {A : Type} {host : Host ω H} {R : ω → ω → Prop} {Q : A → ω → Prop} {c : HCall H} {k : c.Ans → Prog H A} {w : ω}
    (h : ∀ w1, R w w1 → ∀ w2 a, host.exec c w1 = (w2, a) → Sure host R Q (k a) w2) : Sure host R Q (.call c k) w :=
  fun w1 h1 => h w1 h1 _ _ rfl

/-- The walk of `openAt`.  `B` stands for "a call of the operating system has failed". -/
theorem sure_walkLoop {host : Host ω H} {R : ω → ω → Prop} (rf : ∀ a, R a a) {I : ω → Prop} {B : Prop} {good : QID → Bool}
    (hR : ∀ {w w'}, R w w' → I w → I w') (path : List GoString) (p0 : GoString)
    (hl : ∀ ms w w' r, ms ≠ [] → ms <+: path → I w → host.lstat (ms.foldl pathJoin p0) w = (w', r) →
      I w' ∧ (∀ e, r = .error e → B) ∧ ∀ st, r = .ok st → ms = path → good (fileInfoToQID st) = true ∨ B)
    (done ns : List GoString) (hp : done ++ ns = path) {w : ω} (hw : I w) :
    Sure host R (fun x w => I w ∧ (x.2 = none → x.1.length < ns.length ∧ B) ∧
      ∀ q, x.2 = some q → x.1.length = ns.length ∧ q = path.foldl pathJoin p0 ∧ (ns ≠ [] → good (x.1.getLastD {}) = true ∨ B)) (pwalkLoop (done.foldl pathJoin p0) ns) w := by
  induction ns generalizing done w with
  | nil =>
    refine fun w' h => ⟨hR h hw, nofun, fun q h => ?_⟩
    cases h
    rw [List.append_nil] at hp
    rw [hp]
    exact ⟨rfl, rfl, fun h => absurd rfl h⟩
  | cons n ns ih =>
    unfold pwalkLoop
    have hf : pathJoin (done.foldl pathJoin p0) n = (done ++ [n]).foldl pathJoin p0 := by simp
    dsimp only
    rw [hf]
    refine sure_call fun w1 h1 w2 r hx => ?_
    obtain ⟨h2, h3, h4⟩ := hl (done ++ [n]) w1 w2 r (by simp) ⟨ns, by simpa using hp⟩ (hR h1 hw) hx
    cases r with
    | error e => exact fun w3 h5 => ⟨hR h5 h2, fun _ => ⟨by simp, h3 e rfl⟩, nofun⟩
    | ok st =>
      refine Sure.bind rf ((ih (done ++ [n]) (by simpa using hp) h2).imp fun x w hx => ?_)
      obtain ⟨x1, x2, x3⟩ := hx
      refine fun w3 h5 => ⟨hR h5 x1, fun h => ⟨?_, (x2 h).2⟩, fun q h => ?_⟩
      · have := (x2 h).1; simp; omega
      · obtain ⟨y1, y2, y3⟩ := x3 q h
        refine ⟨by simp [y1], y2, fun _ => ?_⟩
        obtain ⟨qs, r⟩ := x
        cases ns with
        | nil =>
          cases List.length_eq_zero_iff.1 y1
          exact h4 st rfl (by simpa using hp)
        | cons m ms =>
          cases qs with
          | nil => cases y1
          | cons q qs => simpa using y3 (by simp)

/-- the path that the file server makes of the elements of a walk from the place it has been started with -/
def placeOf (root : GoString) (path : List GoString) : GoString := path.foldl pathJoin (pathJoin root (pathJoin [47] []))

/-- The rule for `openAt`.  `I` is kept by the others and by the calls that come before the file is opened; `K` holds of the
open file; `B` says that a call may fail. -/
theorem sure_openAt {host : Host ω H} {R : ω → ω → Prop} (rf : ∀ a, R a a) (tr : ∀ {a b c}, R a b → R b c → R a c) {user root : GoString}
    {Q : Got → ω → Prop} {path : List GoString} {mode : Mode} {good : QID → Bool} {k : Job Got} {I : ω → Prop} {K : H → ω → Prop} {B : Prop}
    (hR : ∀ {w w'}, R w w' → I w → I w') (hB : B → ∀ w, I w → Q .failed w)
    (hs : ∀ w w' r, I w → host.stat (placeOf root []) w = (w', r) →
      I w' ∧ (∀ e, r = .error e → B) ∧ ∀ st, r = .ok st → path = [] → good (fileInfoToQID st) = true ∨ B)
    (hl : ∀ ms w w' r, ms ≠ [] → ms <+: path → I w → host.lstat (placeOf root ms) w = (w', r) →
      I w' ∧ (∀ e, r = .error e → B) ∧ ∀ st, r = .ok st → ms = path → good (fileInfoToQID st) = true ∨ B)
    (ho : ∀ w w' r, I w → host.openFile (placeOf root path) (modeToUnixFlags mode) 0 w = (w', r) →
      (B → ∀ w'', R w' w'' → Q .failed w'') ∧ (∀ e, r = .error e → B) ∧ ∀ h, r = .ok h → K h w')
    (hk : ∀ o f h w, o.files 1 = some f → f.file = some h → good f.qid = true → K h w → Sure host R (fun x w => Q x.2 w) (k.prog user o) w)
    {w : ω} (hw : I w) : Sure host R (fun x w => Q x.2 w) ((openAt path mode good k).prog user (newObj root)) w := by
  unfold openAt
  refine sure_ok rf @tr _ _ rfl ?_
  unfold pversion
  rw [if_neg (by simp)]
  intro w1 h1
  have i1 := hR h1 hw
  refine sure_ok rf @tr _ _ rfl ?_
  unfold pattach
  rw [if_neg (by simp)]
  refine sure_call fun w2 h2 w3 r hx => ?_
  obtain ⟨i2, b1, g1⟩ := hs w2 w3 r (hR h2 i1) hx
  cases r with
  | error e => exact fun w4 h4 w5 h5 => hB (b1 e rfl) _ (hR h5 (hR h4 i2))
  | ok st =>
  intro w4 h4
  have i3 := hR h4 i2
  refine sure_ok rf @tr _ _ rfl ?_
  have walked {o : Obj H} {q : List QID} {w : ω} (hw : I w) (hb : q.length ≠ path.length → B)
      (h : q.length = path.length → ∃ f, o.files 1 = some f ∧ f.fullName = placeOf root path ∧ (good f.qid = true ∨ B)) :
      Sure host R (fun x w => Q x.2 w) (Job.prog user (if q.length = path.length then
        Job.ok (.open_ ⟨1, mode⟩) fun r =>
        match r with
        | .open_ q => if good q.OQID then k else .ret .failed
        | _ => .ret .failed
      else .ret .failed) o) w := by
    split
    · rename_i hq
      obtain ⟨f, f1, f2, f3⟩ := h hq
      refine sure_ok rf @tr _ _ rfl ?_
      unfold popen
      dsimp only
      rw [f1]
      refine sure_call fun w1 h1 w2 r hx => ?_
      have hx : host.openFile f.fullName (modeToUnixFlags mode) 0 w1 = (w2, r) := hx
      rw [f2] at hx
      obtain ⟨g1, g2, g3⟩ := ho _ _ _ (hR h1 hw) hx
      cases r with
      | error e => exact fun w4 h4 w5 h5 => g1 (g2 e rfl) _ (tr h4 h5)
      | ok y =>
        intro w4 h4
        dsimp only
        split
        · rename_i hd
          refine (hk _ { f with file := some y } y w2 ?_ rfl hd (g3 y rfl)).later @tr h4
          simp [State.set]
        · rename_i hd
          exact fun w5 h5 => g1 (f3.resolve_left hd) _ (tr h4 h5)
    · rename_i hq
      exact fun w1 h1 => hB (hb hq) _ (hR h1 hw)
  have hset : ∀ (o : Obj H) (i : FID) (f : File H), (o.set i f).files i = some f := fun o i f => by simp [State.set]
  unfold pwalk
  dsimp only
  rw [hset]
  dsimp only
  by_cases hp : path = []
  · rw [if_pos hp]
    split
    · rename_i h
      simp [State.set, newObj, newFS] at h
    · intro w5 h5
      refine walked (hR h5 i3) (fun h => absurd (by simp [hp]) h) fun _ => ⟨_, hset _ _ _, ?_, g1 st rfl hp⟩
      rw [hp]; rfl
  · rw [if_neg hp]
    refine Sure.bind rf ((sure_walkLoop rf @hR path _ hl [] path rfl i3).imp fun x w hx => ?_)
    obtain ⟨q, r⟩ := x
    obtain ⟨x1, x2, x3⟩ := hx
    cases r with
    | none =>
      obtain ⟨y1, y2⟩ := x2 rfl
      dsimp only
      split
      · exact fun w4 h4 w5 h5 => hB y2 _ (hR h5 (hR h4 x1))
      · refine fun w4 h4 => walked (hR h4 x1) (fun _ => y2) fun h => ?_
        dsimp only at y1
        omega
    | some p =>
      obtain ⟨y1, y2, y3⟩ := x3 _ rfl
      dsimp only
      split
      · rename_i h
        simp [State.set, newObj, newFS] at h
      · exact fun w4 h4 => walked (hR h4 x1) (fun h => absurd y1 h) fun h => ⟨_, hset _ _ _, y2, y3 hp⟩

section
variable {ν : Type} {host : Host ω H} {user : GoString} (V : FileView host ν) (N : NameView host ν)

/-- How names and open files belong together: what has been opened at a path is what is there, and opening it for
truncation empties it (open(2)). -/
structure Opens : Prop where
  opened : ∀ {p fl m w w' h v}, N.node p w = some v → host.openFile p fl m w = (w', .ok h) → V.node h w' = some v
  emptied : ∀ {p fl m w w' h v}, fl / 512 % 2 = 1 → N.node p w = some v → host.openFile p fl m w = (w', .ok h) → V.content v w' = []

/-- the others leave the file `v` at the path `p` alone: its contents, its place and what has been opened -/
def Leaves (v : ν) (p : GoString) (w w' : ω) : Prop := CalmAt host V v w w' ∧ StaysAt host N v p w w'

variable {V N}

theorem Leaves.refl {v : ν} {p : GoString} (w : ω) : Leaves V N v p w w := ⟨⟨fun _ _ h => h, rfl⟩, id⟩

theorem Leaves.trans {v : ν} {p : GoString} {a b c : ω} (h : Leaves V N v p a b) (h' : Leaves V N v p b c) : Leaves V N v p a c :=
  ⟨⟨fun x u hx => h'.1.1 x u (h.1.1 x u hx), h'.1.2.trans h.1.2⟩, fun hv => h'.2 (h.2 hv)⟩

/-- the file `v` is at the path `p` and has the contents `d` -/
def Lies (V : FileView host ν) (N : NameView host ν) (v : ν) (p : GoString) (d : Bytes) (w : ω) : Prop := N.node p w = some v ∧ V.content v w = d

theorem Leaves.lies {v : ν} {p : GoString} {d : Bytes} {w w' : ω} (h : Leaves V N v p w w') (hl : Lies V N v p d w) : Lies V N v p d w' :=
  ⟨h.2 hl.1, h.1.2.trans hl.2⟩

theorem sure_clunk {R : ω → ω → Prop} (rf : ∀ a, R a a) (tr : ∀ {a b c}, R a b → R b c → R a c) {Q : Got → ω → Prop} {fid : FID} {a : Got}
    {o : Obj H} {f : File H} {h : H} {I : ω → Prop} (hR : ∀ {w w'}, R w w' → I w → I w') (hc : ∀ w, I w → I (host.close h w).1)
    (hf : o.files fid = some f) (hh : f.file = some h) (h1 : ∀ w, I w → Q a w) {w : ω} (hw : I w) :
    Sure host R (fun x w => Q x.2 w) ((Job.ok (.clunk ⟨fid⟩) fun _ => .ret a).prog user o) w := by
  refine sure_ok rf @tr _ _ rfl ?_
  unfold pclunk
  dsimp only
  rw [hf]
  dsimp only
  unfold pclunkFile
  rw [hh]
  intro w1 g1
  have g2 := hc _ (hR g1 hw)
  intro w2 g3 w3 g4
  exact h1 _ (hR g4 (hR g3 g2))

theorem nonneg_toInt64 {o : UInt64} (h : o.toNat < 2 ^ 63) : 0 ≤ o.toInt64.toInt := by
  have e : o.toInt64.toInt = (o.toNat : Int).bmod (2 ^ 64) := by
    simp [UInt64.toInt64, Int64.toInt, BitVec.toInt_eq_toNat_bmod]
    rfl
  rw [e, Int.bmod_def]
  omega

theorem sure_readAll {v : ν} {p : GoString} {d : Bytes} {Q : Got → ω → Prop} {o : Obj H} {f : File H} {h : H} {fid : FID} {c : Count}
    {R : ω → ω → Prop} (rf : ∀ a, R a a) (tr : ∀ {a b c}, R a b → R b c → R a c) {J : ω → Prop} {B : Prop}
    (hL : ∀ {a b}, R a b → N.node p a = some v → Leaves V N v p a b) (hJ : ∀ {a b}, R a b → J a → J b)
    (jr : ∀ n off w w' x e, J w → V.node h w = some v → host.readAt h n off w = (w', x, e) → J w' ∧ (0 ≤ off.toInt → ∀ y, e = .fail y → B))
    (hf : o.files fid = some f) (hh : f.file = some h) (hd : isPlain f.qid = true) (hc : 0 < c.toInt)
    (hB : B → ∀ w, Lies V N v p d w → Q .failed w) (hsz : d.length < 2 ^ 63 ∨ B)
    (hQ : ∀ w, Lies V N v p d w → Q (.whole d) w) (n : Nat) (acc : Bytes) (off : Offset) (hoff : off.toNat = acc.length)
    (hacc : acc <+: d) (hp : ∀ w, Lies V N v p d w → d.length < acc.length + n ∨ Q .part w) {w : ω}
    (hw : Lies V N v p d w) (hn : V.node h w = some v) (hj : J w) :
    Sure host R (fun x w => Q x.2 w) ((readAll fid c n off acc).prog user o) w := by
  induction n generalizing off acc w with
  | zero =>
    intro w1 h1
    rcases hp w1 ((hL h1 hw.1).lies hw) with h | h
    · have := hacc.length_le; omega
    · exact h
  | succ n ih =>
    refine sure_ok rf @tr _ _ rfl ?_
    unfold pread
    dsimp only
    rw [hf]
    dsimp only
    rw [hh]
    dsimp only
    rw [if_neg (by simpa [isPlain] using hd), if_neg (by omega)]
    refine sure_call fun w1 h1 w2 y hy => ?_
    obtain ⟨x, e⟩ := y
    have hy : host.readAt h c.toInt.toNat off.toInt64 w1 = (w2, x, e) := hy
    have l1 := (hL h1 hw.1).lies hw
    have n1 := (hL h1 hw.1).1.1 _ _ hn
    obtain ⟨j2, jf⟩ := jr _ _ _ _ _ _ (hJ h1 hj) n1 hy
    have ra := @V.read_at h c.toInt.toNat off.toInt64 w1
    have rc := V.read_calm h c.toInt.toNat off.toInt64 w1
    have rn : N.node p (host.readAt h c.toInt.toNat off.toInt64 w1).1 = some v := N.keeps (c := .readAt h c.toInt.toNat off.toInt64) (by simp [Disturbs]) l1.1
    rw [hy] at ra rc rn
    have l2 : Lies V N v p d w2 := ⟨rn, (rc.2 v).trans l1.2⟩
    have n2 := rc.1 _ _ n1
    have good (hne : ∀ y, e ≠ .fail y) {w : ω} (hv : R w2 w) : Sure host R (fun x w => Q x.2 w)
        (Job.prog user (if x.take c.toInt.toNat = [] then Job.ok (.clunk ⟨fid⟩) fun _ => .ret (.whole acc)
          else readAll fid c n (off + UInt64.ofNat (x.take c.toInt.toNat).length) (acc ++ x.take c.toInt.toNat)) o) w := by
      obtain ⟨r1, r2⟩ := ra n1 rfl hne
      have r3 := toInt64_nonneg r1
      rw [r3, l1.2] at r2
      have htake : x.take c.toInt.toNat = x := by rw [r2]; exact List.take_of_length_le (by simp [slice]; omega)
      rw [htake]
      have hpre : acc ++ x = d.take (acc.length + x.length) := by
        obtain ⟨t, rfl⟩ := hacc
        rw [hoff, slice, List.drop_left] at r2
        rw [List.take_append, List.take_of_length_le (by omega), r2, Nat.add_sub_cancel_left]
        congr 1
        rw [List.length_take]
        rcases Nat.le_total c.toInt.toNat t.length with hle | hle
        · rw [Nat.min_eq_left hle]
        · rw [Nat.min_eq_right hle, List.take_of_length_le hle, List.take_of_length_le (Nat.le_refl _)]
      split
      · rename_i hx
        have : acc = d := by
          rw [hx] at r2
          have := slice_nil r2.symm (by omega)
          rw [hoff] at this
          obtain ⟨t, rfl⟩ := hacc
          simpa using this
        subst this
        refine sure_clunk rf @tr (I := Lies V N v p acc) (fun h hl => (hL h hl.1).lies hl) ?_ hf hh hQ ((hL hv l2.1).lies l2)
        exact fun w hw => ⟨N.keeps (c := .close h) (by simp [Disturbs]) hw.1, ((V.close_calm h w).2 v).trans hw.2⟩
      · rename_i hx
        refine ih (acc ++ x) _ ?_ ?_ ?_ ((hL hv l2.1).lies l2) ((hL hv l2.1).1.1 _ _ n2) (hJ hv j2)
        · have hlt : off.toNat < 2 ^ 63 := by
            have := off.toInt64.toInt_lt
            omega
          have hx : x.length < 2 ^ 31 := by
            have h1 := c.toInt_lt
            have h2 : x.length ≤ c.toInt.toNat := by rw [r2]; simp [slice]; omega
            omega
          rw [add_toNat (by omega), hoff, List.length_append]
        · rw [hpre]; exact List.take_prefix _ _
        · intro w hw
          refine (hp w hw).imp (fun h => ?_) id
          have := List.length_pos_iff.2 hx
          simp; omega
    cases e with
    | fail e =>
      refine fun w3 h3 w4 h4 => hB ?_ _ (let l3 := (hL h3 l2.1).lies l2; (hL h4 l3.1).lies l3)
      rcases hsz with hsz | hb
      · exact jf (nonneg_toInt64 (by have := hacc.length_le; omega)) e rfl
      · exact hb
    | none => exact fun w3 h3 => good (by simp) h3
    | eof => exact fun w3 h3 => good (by simp) h3

/-- the file is at its place and open, and has the contents `d` -/
def Held (V : FileView host ν) (N : NameView host ν) (v : ν) (p : GoString) (d : Bytes) (h : H) (w : ω) : Prop :=
  Lies V N v p d w ∧ V.node h w = some v

theorem overlay_end (c b : Bytes) : overlay c c.length b = c ++ b := by
  unfold overlay
  split
  · rename_i h; simp [h]
  · rw [List.take_of_length_le (Nat.le_refl _), List.drop_eq_nil_of_le (by omega)]; simp

theorem sure_writeAll {v : ν} {p : GoString} {Q : Got → ω → Prop} {o : Obj H} {f : File H} {h : H} {fid : FID}
    {R : ω → ω → Prop} (rf : ∀ a, R a a) (tr : ∀ {a b c}, R a b → R b c → R a c) {J : ω → Prop} {B : Prop}
    (hL : ∀ {a b}, R a b → N.node p a = some v → Leaves V N v p a b) (hJ : ∀ {a b}, R a b → J a → J b)
    (jr : ∀ b off w w' k e, J w → V.node h w = some v → host.writeAt h b off w = (w', k, e) → J w' ∧ (0 ≤ off.toInt → ∀ y, e = some y → B))
    (hf : o.files fid = some f) (hh : f.file = some h) (bs : List Bytes) (hb : ∀ b ∈ bs, b.length < 2 ^ 31)
    (hB : B → ∀ w, N.node p w = some v → Q .failed w) (acc : Bytes) (hsz : acc.length + bs.flatten.length < 2 ^ 63 ∨ B) (hQ : ∀ w, Lies V N v p (acc ++ bs.flatten) w → Q (.whole (acc ++ bs.flatten)) w)
    (off : Offset) (hoff : off.toNat = acc.length) {w : ω} (hw : Lies V N v p acc w) (hn : V.node h w = some v) (hj : J w) :
    Sure host R (fun x w => Q x.2 w) ((writeAll fid bs off acc).prog user o) w := by
  induction bs generalizing off acc w with
  | nil =>
    simp only [List.flatten_nil, List.append_nil] at hQ
    refine sure_clunk rf @tr (I := Lies V N v p acc) (fun h hl => (hL h hl.1).lies hl) ?_ hf hh hQ hw
    exact fun w hw => ⟨N.keeps (c := .close h) (by simp [Disturbs]) hw.1, ((V.close_calm h w).2 v).trans hw.2⟩
  | cons b bs ih =>
    refine sure_ok rf @tr _ _ rfl ?_
    unfold pwrite
    dsimp only
    rw [hf]
    dsimp only
    rw [hh]
    dsimp only
    refine sure_call fun w1 h1 w2 y hy => ?_
    obtain ⟨k, e⟩ := y
    have hy : host.writeAt h b off.toInt64 w1 = (w2, k, e) := hy
    have l1 := (hL h1 hw.1).lies hw
    have n1 := (hL h1 hw.1).1.1 _ _ hn
    obtain ⟨j2, jf⟩ := jr _ _ _ _ _ _ (hJ h1 hj) n1 hy
    have wa := @V.write_at h b off.toInt64 w1
    have wc := V.write_calm h b off.toInt64 w1
    have wn : N.node p (host.writeAt h b off.toInt64 w1).1 = some v := N.keeps (c := .writeAt h b off.toInt64) (by simp [Disturbs]) l1.1
    rw [hy] at wa wc wn
    cases e with
    | some e =>
      refine fun w3 h3 w4 h4 => hB ?_ _ (let l3 := (hL h3 wn).2 wn; (hL h4 l3).2 l3)
      rcases hsz with hsz | hb
      · exact jf (nonneg_toInt64 (by omega)) e rfl
      · exact hb
    | none =>
      obtain ⟨a1, a2, a3⟩ := wa n1 rfl
      rw [toInt64_nonneg a1, l1.2, hoff, overlay_end] at a3
      intro w3 h3
      dsimp only
      rw [if_pos (by rw [a2])]
      have h4 := hb b (by simp)
      have hlt : off.toNat < 2 ^ 63 := by
        have := off.toInt64.toInt_lt
        have := toInt64_nonneg a1
        omega
      refine (ih (fun b hb' => hb b (by simp [hb'])) (acc ++ b) ?_ ?_ _ ?_ ⟨wn, a3⟩ (wc.1 _ _ n1) j2).later @tr h3
      · refine hsz.imp (fun h => ?_) id
        simp at h ⊢
        omega
      · simpa using hQ
      · rw [add_toNat (by omega), hoff, List.length_append]

theorem flags_read : modeToUnixFlags 0 / 512 % 2 = 0 ∧ modeToUnixFlags 0 / 64 % 2 = 0 := by decide
theorem flags_store : modeToUnixFlags 17 / 512 % 2 = 1 := by decide

/-- In the worlds `J`, a file of the right kind can be reached and opened; that leads to such worlds again.  `M` are the
open files that the others do not close. -/
structure CanReach (host : Host ω H) (root : GoString) (path : List GoString) (mode : Mode) (good : QID → Bool) (J : ω → Prop) (M : H → ω → Prop) : Prop where
  attach : ∀ w w' r, J w → host.stat (placeOf root []) w = (w', r) → J w' ∧ ∃ st, r = .ok st ∧ (path = [] → good (fileInfoToQID st) = true)
  walk : ∀ ms w w' r, ms ≠ [] → ms <+: path → J w → host.lstat (placeOf root ms) w = (w', r) →
    J w' ∧ ∃ st, r = .ok st ∧ (ms = path → good (fileInfoToQID st) = true)
  opens : ∀ w w' r, J w → host.openFile (placeOf root path) (modeToUnixFlags mode) 0 w = (w', r) → J w' ∧ ∃ h, r = .ok h ∧ M h w'

/-- In the worlds `J`, the file `v` at this place can be read. -/
structure CanRead (V : FileView host ν) (root : GoString) (path : List GoString) (v : ν) (J : ω → Prop) (M : H → ω → Prop) : Prop where
  reach : CanReach host root path 0 isPlain J M
  reads : ∀ h n off w w' x e, J w → M h w → V.node h w = some v → host.readAt h n off w = (w', x, e) → J w' ∧ M h w' ∧ (0 ≤ off.toInt → ∀ y, e ≠ .fail y)

/-- In the worlds `J`, the file `v` at this place can be written. -/
structure CanWrite (V : FileView host ν) (root : GoString) (path : List GoString) (v : ν) (J : ω → Prop) (M : H → ω → Prop) : Prop where
  reach : CanReach host root path 17 isPlain J M
  writes : ∀ h b off w w' k e, J w → M h w → V.node h w = some v → host.writeAt h b off w = (w', k, e) → J w' ∧ M h w' ∧ (0 ≤ off.toInt → e = none)

/-- what comes of `fetch` if the file has the contents `d` -/
def Fetched (V : FileView host ν) (N : NameView host ν) (v : ν) (p : GoString) (d : Bytes) (n : Nat) : Got → ω → Prop
  | .whole x, w => x = d ∧ Lies V N v p d w
  | .part, w => n ≤ d.length ∧ Lies V N v p d w
  | .failed, w => Lies V N v p d w

theorem sure_fetch (hO : Opens V N) {root : GoString} {path : List GoString} {v : ν} {d : Bytes} {c : Count} (hc : 0 < c.toInt) (n : Nat)
    {R : ω → ω → Prop} (rf : ∀ a, R a a) (tr : ∀ {a b c}, R a b → R b c → R a c) {J : ω → Prop} {M : H → ω → Prop} {B : Prop}
    (hL : ∀ {a b}, R a b → N.node (placeOf root path) a = some v → Leaves V N v (placeOf root path) a b) (hJ : ∀ {a b}, R a b → J a → J b) (hM : ∀ {a b}, R a b → ∀ h, M h a → M h b)
    (hcan : CanRead V root path v J M ∨ (B ∧ (∀ w, J w) ∧ ∀ h w, M h w)) (hsz : d.length < 2 ^ 63 ∨ B) {w : ω}
    (hw : Lies V N v (placeOf root path) d w) (hj : J w) :
    Sure host R (fun x w => Fetched V N v (placeOf root path) d n x.2 w ∧ (x.2 = .failed → B)) ((fetch path c n).prog user (newObj root)) w := by
  refine sure_openAt rf @tr (I := fun w => Lies V N v (placeOf root path) d w ∧ J w) (K := fun h w => Held V N v (placeOf root path) d h w ∧ J w ∧ M h w) (B := B)
    (Q := fun a w => Fetched V N v (placeOf root path) d n a w ∧ (a = .failed → B))
    (fun h h' => ⟨(hL h h'.1.1).lies h'.1, hJ h h'.2⟩) (fun hb _ h => ⟨h.1, fun _ => hb⟩) ?_ ?_ ?_ ?_ ⟨hw, hj⟩
  · intro w w' r h hx
    have h1 := N.keeps (c := .stat (placeOf root [])) (by simp [Disturbs]) h.1.1
    have h2 := ((V.stat_calm (placeOf root []) w).2 v).trans h.1.2
    rw [show host.exec (.stat (placeOf root [])) w = (w', r) from hx] at h1
    rw [hx] at h2
    rcases hcan with hcan | ⟨hb, hj, hm⟩
    · obtain ⟨j1, st, rfl, j2⟩ := hcan.reach.attach w w' r h.2 hx
      exact ⟨⟨⟨h1, h2⟩, j1⟩, nofun, fun st hst hp => by cases hst; exact .inl (j2 hp)⟩
    · exact ⟨⟨⟨h1, h2⟩, hj _⟩, fun _ _ => hb, fun _ _ _ => .inr hb⟩
  · intro ms w w' r hne hpre h hx
    have h1 := N.keeps (c := .lstat (placeOf root ms)) (by simp [Disturbs]) h.1.1
    have h2 := ((V.lstat_calm (placeOf root ms) w).2 v).trans h.1.2
    rw [show host.exec (.lstat (placeOf root ms)) w = (w', r) from hx] at h1
    rw [hx] at h2
    rcases hcan with hcan | ⟨hb, hj, hm⟩
    · obtain ⟨j1, st, rfl, j2⟩ := hcan.reach.walk ms w w' r hne hpre h.2 hx
      exact ⟨⟨⟨h1, h2⟩, j1⟩, nofun, fun st hst hp => by cases hst; exact .inl (j2 hp)⟩
    · exact ⟨⟨⟨h1, h2⟩, hj _⟩, fun _ _ => hb, fun _ _ _ => .inr hb⟩
  · intro w w' r h hx
    have h1 := V.open_calm (placeOf root path) (modeToUnixFlags 0) 0 w flags_read.1 flags_read.2
    have h2 := N.keeps (c := .openFile (placeOf root path) (modeToUnixFlags 0) 0) (by simp [Disturbs]) h.1.1
    rw [show host.exec (.openFile (placeOf root path) (modeToUnixFlags 0) 0) w = (w', r) from hx] at h2
    rw [hx] at h1
    have h3 : Lies V N v (placeOf root path) d w' := ⟨h2, (h1.2 v).trans h.1.2⟩
    have h4 : J w' ∧ (∀ e, r = .error e → B) ∧ ∀ y, r = .ok y → M y w' := by
      rcases hcan with hcan | ⟨hb, hj, hm⟩
      · obtain ⟨j1, y, rfl, j2⟩ := hcan.reach.opens w w' r h.2 hx
        exact ⟨j1, nofun, fun z hz => by cases hz; exact j2⟩
      · exact ⟨hj _, fun _ _ => hb, fun _ _ => hm _ _⟩
    exact ⟨fun hb w'' hl => ⟨(hL hl h3.1).lies h3, fun _ => hb⟩, h4.2.1, fun y hy => ⟨⟨h3, hO.opened h.1.1 (by rw [hx, hy])⟩, h4.1, h4.2.2 y hy⟩⟩
  · intro o f h w h1 h2 h3 h4
    refine sure_readAll (B := B) (J := fun w => J w ∧ M h w) (Q := fun a w => Fetched V N v (placeOf root path) d n a w ∧ (a = .failed → B)) rf @tr @hL
      (fun hr hjm => ⟨hJ hr hjm.1, hM hr h hjm.2⟩) ?_ h1 h2 h3 hc
      (fun hb w hw => ⟨hw, fun _ => hb⟩) hsz (fun w hw => ⟨⟨rfl, hw⟩, nofun⟩) n [] 0 rfl List.nil_prefix (fun w hw => ?_) h4.1.1 h4.1.2 h4.2
    · intro n off w w' x e hj hn hx
      rcases hcan with hcan | ⟨hb, hj, hm⟩
      · obtain ⟨j1, j2, j3⟩ := hcan.reads h n off w w' x e hj.1 hj.2 hn hx
        exact ⟨⟨j1, j2⟩, fun ho y hy => absurd hy (j3 ho y)⟩
      · exact ⟨⟨hj _, hm _ _⟩, fun _ _ _ => hb⟩
    · by_cases hd : d.length < n
      · exact .inl (by simpa using hd)
      · exact .inr ⟨⟨by omega, hw⟩, nofun⟩

/-- what comes of `store` -/
def Stored (V : FileView host ν) (N : NameView host ν) (v : ν) (p : GoString) (d : Bytes) : Got → ω → Prop
  | .whole x, w => x = d ∧ Lies V N v p d w
  | .part, _ => False
  | .failed, w => N.node p w = some v

theorem sure_store (hO : Opens V N) {root : GoString} {path : List GoString} {v : ν} {bs : List Bytes} (hb : ∀ b ∈ bs, b.length < 2 ^ 31)
    {R : ω → ω → Prop} (rf : ∀ a, R a a) (tr : ∀ {a b c}, R a b → R b c → R a c) {J : ω → Prop} {M : H → ω → Prop} {B : Prop}
    (hL : ∀ {a b}, R a b → N.node (placeOf root path) a = some v → Leaves V N v (placeOf root path) a b) (hJ : ∀ {a b}, R a b → J a → J b) (hM : ∀ {a b}, R a b → ∀ h, M h a → M h b)
    (hcan : CanWrite V root path v J M ∨ (B ∧ (∀ w, J w) ∧ ∀ h w, M h w)) (hsz : bs.flatten.length < 2 ^ 63 ∨ B) {w : ω}
    (hw : N.node (placeOf root path) w = some v) (hj : J w) :
    Sure host R (fun x w => Stored V N v (placeOf root path) bs.flatten x.2 w ∧ (x.2 = .failed → B)) ((store path bs).prog user (newObj root)) w := by
  refine sure_openAt rf @tr (I := fun w => N.node (placeOf root path) w = some v ∧ J w) (K := fun h w => Held V N v (placeOf root path) [] h w ∧ J w ∧ M h w)
    (B := B) (Q := fun a w => Stored V N v (placeOf root path) bs.flatten a w ∧ (a = .failed → B))
    (fun h h' => ⟨(hL h h'.1).2 h'.1, hJ h h'.2⟩) (fun hb _ h => ⟨h.1, fun _ => hb⟩) ?_ ?_ ?_ ?_ ⟨hw, hj⟩
  · intro w w' r h hx
    have h1 := N.keeps (c := .stat (placeOf root [])) (by simp [Disturbs]) h.1
    rw [show host.exec (.stat (placeOf root [])) w = (w', r) from hx] at h1
    rcases hcan with hcan | ⟨hb, hj, hm⟩
    · obtain ⟨j1, st, rfl, j2⟩ := hcan.reach.attach w w' r h.2 hx
      exact ⟨⟨h1, j1⟩, nofun, fun st hst hp => by cases hst; exact .inl (j2 hp)⟩
    · exact ⟨⟨h1, hj _⟩, fun _ _ => hb, fun _ _ _ => .inr hb⟩
  · intro ms w w' r hne hpre h hx
    have h1 := N.keeps (c := .lstat (placeOf root ms)) (by simp [Disturbs]) h.1
    rw [show host.exec (.lstat (placeOf root ms)) w = (w', r) from hx] at h1
    rcases hcan with hcan | ⟨hb, hj, hm⟩
    · obtain ⟨j1, st, rfl, j2⟩ := hcan.reach.walk ms w w' r hne hpre h.2 hx
      exact ⟨⟨h1, j1⟩, nofun, fun st hst hp => by cases hst; exact .inl (j2 hp)⟩
    · exact ⟨⟨h1, hj _⟩, fun _ _ => hb, fun _ _ _ => .inr hb⟩
  · intro w w' r h hx
    have h2 := N.keeps (c := .openFile (placeOf root path) (modeToUnixFlags 17) 0) (by simp [Disturbs]) h.1
    rw [show host.exec (.openFile (placeOf root path) (modeToUnixFlags 17) 0) w = (w', r) from hx] at h2
    have h4 : J w' ∧ (∀ e, r = .error e → B) ∧ ∀ y, r = .ok y → M y w' := by
      rcases hcan with hcan | ⟨hb, hj, hm⟩
      · obtain ⟨j1, y, rfl, j2⟩ := hcan.reach.opens w w' r h.2 hx
        exact ⟨j1, nofun, fun z hz => by cases hz; exact j2⟩
      · exact ⟨hj _, fun _ _ => hb, fun _ _ => hm _ _⟩
    refine ⟨fun hb w'' hl => ⟨(hL hl h2).2 h2, fun _ => hb⟩, h4.2.1, fun y hy => ⟨?_, h4.1, h4.2.2 y hy⟩⟩
    subst hy
    exact ⟨⟨h2, hO.emptied flags_store h.1 hx⟩, hO.opened h.1 hx⟩
  · intro o f h w h1 h2 h3 h4
    refine sure_writeAll (B := B) (J := fun w => J w ∧ M h w) (Q := fun a w => Stored V N v (placeOf root path) bs.flatten a w ∧ (a = .failed → B)) rf @tr @hL
      (fun hr hjm => ⟨hJ hr hjm.1, hM hr h hjm.2⟩) ?_ h1 h2 bs hb
      (fun hb w hw => ⟨hw, fun _ => hb⟩) [] (by simpa using hsz) (fun w hw => ⟨⟨rfl, hw⟩, nofun⟩) 0 rfl h4.1.1 h4.1.2 h4.2
    intro b off w w' k e hj hn hx
    rcases hcan with hcan | ⟨hb, hj, hm⟩
    · obtain ⟨j1, j2, j3⟩ := hcan.writes h b off w w' k e hj.1 hj.2 hn hx
      exact ⟨⟨j1, j2⟩, fun ho y hy => by rw [j3 ho] at hy; cases hy⟩
    · exact ⟨⟨hj _, hm _ _⟩, fun _ _ _ => hb⟩

/-- **C99** Client `i` reads a file and has made no calls before `n`; from `n` on the others leave the file alone, but do
anything else.  If the program returns with a whole file, it is the file.  If the program is ready to read more
often than the file has bytes, it does not stop early.  The file is left as it is. -/
theorem C99_fetch (hO : Opens V N) (hh : host.Short) (hu : user.length < 2 ^ 13) (root : GoString) (w : ω) (jobs : Nat → Job Got)
    (hj : ∀ i, (jobs i).Proper) (n n' : Shop ω H Got) (ls ls' : List (JobLabel ω H)) (he : JobExec host user (Shop.start root w jobs) ls n)
    (i : Nat) (path : List GoString) (c : Count) (hc : 0 < c.toInt) (k : Nat) (hi : jobs i = fetch path c k)
    (hid : ∀ x, (n.site.link i).w.cl.phase x = .idle) (v : ν) (hv : N.node (placeOf root path) n.site.world = some v)
    (he' : GentleExec host user i (Leaves V N v (placeOf root path)) n ls' n') (hl : ∀ l ∈ ls ++ ls', l.Clean)
    (a : Got) (ha : n'.stage i = .next (.ret a)) :
    (∀ d, a = .whole d → d = V.content v n.site.world) ∧ ((V.content v n.site.world).length < k → a ≠ .part) ∧
      N.node (placeOf root path) n'.site.world = some v ∧ V.content v n'.site.world = V.content v n.site.world := by
  have h := job_sure hh hu hj he Leaves.refl Leaves.trans he' hl hid ha (Q := fun a w => Fetched V N v (placeOf root path) (V.content v n.site.world) k a w ∧ (a = .failed → True))
    (by rw [hi]; exact sure_fetch (J := fun _ => True) (M := fun _ _ => True) hO hc k Leaves.refl Leaves.trans (fun h _ => h) (fun _ => id) (fun _ _ => id) (.inr ⟨trivial, fun _ => trivial, fun _ _ => trivial⟩) (.inr trivial) ⟨hv, rfl⟩ trivial)
  have h := h.1
  cases a with
  | whole d => exact ⟨fun _ hd => by cases hd; exact h.1, nofun, h.2.1, h.2.2⟩
  | part => exact ⟨nofun, fun hlt => absurd h.1 (by omega), h.2.1, h.2.2⟩
  | failed => exact ⟨nofun, nofun, h.1, h.2⟩

/-- **C99** Client `i` writes a file.  If its program returns with success, the file has the contents that were to be written
and nothing else. -/
theorem C99_store (hO : Opens V N) (hh : host.Short) (hu : user.length < 2 ^ 13) (root : GoString) (w : ω) (jobs : Nat → Job Got)
    (hj : ∀ i, (jobs i).Proper) (n n' : Shop ω H Got) (ls ls' : List (JobLabel ω H)) (he : JobExec host user (Shop.start root w jobs) ls n)
    (i : Nat) (path : List GoString) (bs : List Bytes) (hb : ∀ b ∈ bs, b.length < 2 ^ 31) (hi : jobs i = store path bs)
    (hid : ∀ x, (n.site.link i).w.cl.phase x = .idle) (v : ν) (hv : N.node (placeOf root path) n.site.world = some v)
    (he' : GentleExec host user i (Leaves V N v (placeOf root path)) n ls' n') (hl : ∀ l ∈ ls ++ ls', l.Clean)
    (a : Got) (ha : n'.stage i = .next (.ret a)) :
    (∀ d, a = .whole d → d = bs.flatten ∧ V.content v n'.site.world = bs.flatten) ∧ a ≠ .part ∧ N.node (placeOf root path) n'.site.world = some v := by
  have h := job_sure hh hu hj he Leaves.refl Leaves.trans he' hl hid ha (Q := fun a w => Stored V N v (placeOf root path) bs.flatten a w ∧ (a = .failed → True))
    (by rw [hi]; exact sure_store (J := fun _ => True) (M := fun _ _ => True) hO hb Leaves.refl Leaves.trans (fun h _ => h) (fun _ => id) (fun _ _ => id) (.inr ⟨trivial, fun _ => trivial, fun _ _ => trivial⟩) (.inr trivial) hv trivial)
  have h := h.1
  cases a with
  | whole d => exact ⟨fun _ hd => by cases hd; exact ⟨h.1, h.2.2⟩, nofun, h.2.1⟩
  | part => exact h.elim
  | failed => exact ⟨nofun, nofun, h⟩

/-- the others leave the file alone, keep to `J` and do not close the files `M` -/
def LeavesIn (V : FileView host ν) (N : NameView host ν) (v : ν) (p : GoString) (J : ω → Prop) (M : H → ω → Prop) (w w' : ω) : Prop :=
  Leaves V N v p w w' ∧ (J w → J w') ∧ ∀ h, M h w → M h w'

theorem LeavesIn.refl {v : ν} {p : GoString} {J : ω → Prop} {M : H → ω → Prop} (w : ω) : LeavesIn V N v p J M w w := ⟨Leaves.refl w, id, fun _ => id⟩

theorem LeavesIn.trans {v : ν} {p : GoString} {J : ω → Prop} {M : H → ω → Prop} {a b c : ω} (h : LeavesIn V N v p J M a b) (h' : LeavesIn V N v p J M b c) :
    LeavesIn V N v p J M a c :=
  ⟨h.1.trans h'.1, fun hj => h'.2.1 (h.2.1 hj), fun x hx => h'.2.2 x (h.2.2 x hx)⟩

/-- **C99** If the file can be read, client `i` reads it: its program ends with the contents of the file. -/
theorem C99_fetched (hO : Opens V N) (hh : host.Short) (hu : user.length < 2 ^ 13) (root : GoString) (w : ω) (jobs : Nat → Job Got)
    (hj : ∀ i, (jobs i).Proper) (n n' : Shop ω H Got) (ls ls' : List (JobLabel ω H)) (he : JobExec host user (Shop.start root w jobs) ls n)
    (i : Nat) (path : List GoString) (c : Count) (hc : 0 < c.toInt) (k : Nat) (hi : jobs i = fetch path c k)
    (hid : ∀ x, (n.site.link i).w.cl.phase x = .idle) (v : ν) (hv : N.node (placeOf root path) n.site.world = some v)
    (J : ω → Prop) (M : H → ω → Prop) (hcan : CanRead V root path v J M) (hJ : J n.site.world)
    (hsz : (V.content v n.site.world).length < k) (hsz' : (V.content v n.site.world).length < 2 ^ 63)
    (he' : GentleExec host user i (LeavesIn V N v (placeOf root path) J M) n ls' n') (hl : ∀ l ∈ ls ++ ls', l.Clean)
    (a : Got) (ha : n'.stage i = .next (.ret a)) : a = .whole (V.content v n.site.world) := by
  have h := job_sure hh hu hj he LeavesIn.refl LeavesIn.trans he' hl hid ha
    (Q := fun a w => Fetched V N v (placeOf root path) (V.content v n.site.world) k a w ∧ (a = .failed → False))
    (by rw [hi]; exact sure_fetch hO hc k LeavesIn.refl LeavesIn.trans (fun h _ => h.1) (fun h => h.2.1) (fun h => h.2.2) (.inl hcan) (.inl hsz') ⟨hv, rfl⟩ hJ)
  cases a with
  | whole d => rw [h.1.1]
  | part => exact absurd h.1.1 (by omega)
  | failed => exact (h.2 rfl).elim

/-- **C99** If the file can be written, client `i` writes it: its program ends with success, and the file has the contents
that were to be written. -/
theorem C99_stored (hO : Opens V N) (hh : host.Short) (hu : user.length < 2 ^ 13) (root : GoString) (w : ω) (jobs : Nat → Job Got)
    (hj : ∀ i, (jobs i).Proper) (n n' : Shop ω H Got) (ls ls' : List (JobLabel ω H)) (he : JobExec host user (Shop.start root w jobs) ls n)
    (i : Nat) (path : List GoString) (bs : List Bytes) (hb : ∀ b ∈ bs, b.length < 2 ^ 31) (hi : jobs i = store path bs)
    (hid : ∀ x, (n.site.link i).w.cl.phase x = .idle) (v : ν) (hv : N.node (placeOf root path) n.site.world = some v)
    (J : ω → Prop) (M : H → ω → Prop) (hcan : CanWrite V root path v J M) (hJ : J n.site.world) (hsz : bs.flatten.length < 2 ^ 63)
    (he' : GentleExec host user i (LeavesIn V N v (placeOf root path) J M) n ls' n') (hl : ∀ l ∈ ls ++ ls', l.Clean)
    (a : Got) (ha : n'.stage i = .next (.ret a)) : a = .whole bs.flatten ∧ V.content v n'.site.world = bs.flatten := by
  have h := job_sure hh hu hj he LeavesIn.refl LeavesIn.trans he' hl hid ha
    (Q := fun a w => Stored V N v (placeOf root path) bs.flatten a w ∧ (a = .failed → False))
    (by rw [hi]; exact sure_store hO hb LeavesIn.refl LeavesIn.trans (fun h _ => h.1) (fun h => h.2.1) (fun h => h.2.2) (.inl hcan) (.inl hsz) hv hJ)
  cases a with
  | whole d => exact ⟨by rw [h.1.1], h.1.2.2⟩
  | part => exact h.1.elim
  | failed => exact (h.2 rfl).elim

/-- **C99** What one client has written another client reads, byte for byte, however the pieces are cut: client `i` writes
the file between `n` and `n1`, and client `j`, which has made no calls before `n1`, reads it between `n1` and `n2`. -/
theorem C99_copy (hO : Opens V N) (hh : host.Short) (hu : user.length < 2 ^ 13) (root : GoString) (w : ω) (jobs : Nat → Job Got)
    (hj : ∀ i, (jobs i).Proper) (n n1 n2 : Shop ω H Got) (ls ls1 ls2 : List (JobLabel ω H))
    (he : JobExec host user (Shop.start root w jobs) ls n) (i j : Nat) (path : List GoString) (bs : List Bytes) (hb : ∀ b ∈ bs, b.length < 2 ^ 31)
    (c : Count) (hc : 0 < c.toInt) (k : Nat) (hi : jobs i = store path bs) (hjf : jobs j = fetch path c k)
    (v : ν) (hv : N.node (placeOf root path) n.site.world = some v)
    (hid : ∀ x, (n.site.link i).w.cl.phase x = .idle) (he1 : GentleExec host user i (Leaves V N v (placeOf root path)) n ls1 n1)
    (hjd : ∀ x, (n1.site.link j).w.cl.phase x = .idle) (he2 : GentleExec host user j (Leaves V N v (placeOf root path)) n1 ls2 n2)
    (hl : ∀ l ∈ ls ++ ls1 ++ ls2, l.Clean) (x y : Bytes) (hx : n1.stage i = .next (.ret (.whole x))) (hy : n2.stage j = .next (.ret (.whole y))) :
    y = bs.flatten := by
  obtain ⟨h1, -, h2⟩ := C99_store hO hh hu root w jobs hj n n1 ls ls1 he i path bs hb hi hid v hv he1 (fun l h => hl l (List.mem_append_left _ h)) _ hx
  obtain ⟨h3, -⟩ := C99_fetch hO hh hu root w jobs hj n1 n2 (ls ++ ls1) ls2 (he.trans he1.exec) j path c hc k hjf hjd v h2 he2 hl _ hy
  rw [h3 y rfl, (h1 x rfl).2]

end

/-! ### an example -/

section
open Mem

theorem onHandle_next {α : Type} (h : Nat) (w : World) (bad : α) (f : Opened → World × α) (hf : ∀ o, (f o).1.next = w.next) :
    (onHandle h w bad f).1.next = w.next := by
  unfold onHandle
  split
  · split
    · exact hf _
    · rfl
  · rfl

theorem onNode_next (p : GoString) (f : Node → Node) (w : World) : (onNode p f w).1.next = w.next := by
  unfold onNode; split <;> rfl

theorem mem_next (c : HCall Nat) (w : World) : w.next ≤ (Mem.host.exec c w).1.next := by
  cases c with
  | lstat p => exact Nat.le_refl _
  | stat p => exact Nat.le_refl _
  | openFile p f m =>
    show _ ≤ (Mem.openFile p f m w).1.next
    unfold Mem.openFile
    split
    · split
      · exact Nat.le_refl _
      · show _ ≤ (if f / 512 % 2 = 1 then _ else w : World).next
        split <;> exact Nat.le_refl _
    · split
      · exact Nat.le_succ _
      · exact Nat.le_refl _
  | mkdir p m =>
    show _ ≤ (Mem.mkdir p m w).1.next
    unfold Mem.mkdir
    split
    · exact Nat.le_refl _
    · exact Nat.le_succ _
  | chmod p m => exact Nat.le_of_eq (onNode_next _ _ _).symm
  | rename p q =>
    show _ ≤ (Mem.rename p q w).1.next
    unfold Mem.rename
    split <;> exact Nat.le_refl _
  | truncate p n =>
    show _ ≤ (if n.toInt < 0 then _ else _ : World × Option GoString).1.next
    split
    · exact Nat.le_refl _
    · exact Nat.le_of_eq (onNode_next _ _ _).symm
  | chtimes p a m => exact Nat.le_of_eq (onNode_next _ _ _).symm
  | remove p =>
    show _ ≤ (Mem.remove p w).1.next
    unfold Mem.remove
    split <;> exact Nat.le_refl _
  | close h => exact Nat.le_of_eq (onHandle_next h w _ _ fun _ => rfl).symm
  | sync h => exact Nat.le_of_eq (onHandle_next h w _ _ fun _ => rfl).symm
  | seek0 h => exact Nat.le_of_eq (onHandle_next h w _ _ fun _ => rfl).symm
  | readdir1 h => exact Nat.le_of_eq (onHandle_next _ _ _ _ fun o => by cases o.rest <;> rfl).symm
  | readAt h n off => exact Nat.le_of_eq (onHandle_next _ _ _ _ fun o => by dsimp only; split <;> rfl).symm
  | writeAt h b off => exact Nat.le_of_eq (onHandle_next _ _ _ _ fun o => by split <;> rfl).symm

/-- what is at a path in the example host -/
def memAt (r : GoString) (w : World) : Option Nat := (find r w).filter (· < w.next)

theorem memAt_some {r : GoString} {w : World} {v : Nat} : memAt r w = some v ↔ find r w = some v ∧ v < w.next := by
  unfold memAt; rw [Option.filter_eq_some_iff]; simp

theorem short_world (c : HCall Nat) (w : World) : (shortHost.exec c w).1 = (Mem.host.exec c w).1 := by
  cases c <;> first | rfl | skip
  all_goals
    simp only [Host.exec, shortHost]
    split <;> rfl

def shortFiles : FileView shortHost Nat where
  node := memNode
  content := memContent
  read_at := memFiles.read_at
  read_calm := memFiles.read_calm
  write_at := memFiles.write_at
  write_calm := memFiles.write_calm
  close_calm := memFiles.close_calm
  sync_calm := memFiles.sync_calm
  seek_calm := memFiles.seek_calm
  readdir_calm := memFiles.readdir_calm
  lstat_calm p w := by rw [show (shortHost.lstat p w).1 = w from short_world (.lstat p) w]; exact Calm.refl w
  stat_calm p w := by rw [show (shortHost.stat p w).1 = w from short_world (.stat p) w]; exact Calm.refl w
  open_calm := memFiles.open_calm
  mkdir_calm := memFiles.mkdir_calm
  chmod_calm := memFiles.chmod_calm
  rename_calm := memFiles.rename_calm
  chtimes_calm := memFiles.chtimes_calm
  remove_calm := memFiles.remove_calm

def shortNames : NameView shortHost Nat where
  node := memAt
  keeps := by
    intro c r w v hd hv
    obtain ⟨h1, h2⟩ := memAt_some.1 hv
    rw [short_world]
    exact memAt_some.2 ⟨memNames.keeps hd h1, Nat.lt_of_lt_of_le h2 (mem_next c w)⟩
  rename_ok := by
    intro p q w w' v h hv
    obtain ⟨h0, h1⟩ := memAt_some.1 hv
    have h2 : w'.next = w.next := by
      have h : Mem.rename p q w = (w', none) := h
      unfold Mem.rename at h
      split at h <;> cases h
      rfl
    exact memAt_some.2 ⟨memNames.rename_ok h h0, by rw [h2]; exact h1⟩
  rename_fails := by
    intro p q w w' e r v h hv
    have h : Mem.rename p q w = (w', some e) := h
    unfold Mem.rename at h
    split at h <;> cases h
    exact hv

theorem short_opens : Opens shortFiles shortNames := by
  have key {p : GoString} {fl : Nat} {m : UInt32} {w w' : World} {h v : Nat} (hn : memAt p w = some v) (ho : Mem.openFile p fl m w = (w', .ok h)) :
      memNode h w' = some v ∧ (fl / 512 % 2 = 1 → memContent v w' = []) := by
    obtain ⟨h1, h2⟩ := memAt_some.1 hn
    unfold Mem.openFile at ho
    rw [h1] at ho
    dsimp only at ho
    split at ho
    · cases ho
    · by_cases ht : fl / 512 % 2 = 1
      · rw [if_pos ht] at ho
        cases ho
        refine ⟨memNode_some.2 ⟨_, List.getElem?_concat_length, rfl, h2⟩, fun _ => ?_⟩
        simp [memContent, setNode]
      · rw [if_neg ht] at ho
        cases ho
        exact ⟨memNode_some.2 ⟨_, List.getElem?_concat_length, rfl, h2⟩, fun h => absurd h ht⟩
  exact ⟨fun hn ho => (key hn ho).1, fun ht hn ho => (key hn ho).2 ht⟩

theorem own_site {host : Host ω H} {user : GoString} {i : Nat} {l : SiteLabel ω H} {n n' : Site ω H} (hs : SiteStep host user l n n')
    (ho : l.Own i ∨ l = .link i (.step .call)) :
    (∀ j, j ≠ i → n'.link j = n.link j) ∧ n'.exit = n.exit ∧ (n'.world = n.world ∨ ∃ e, l = .call i e) := by
  have links {j : Nat} (x : Link H) (hj : j = i) : ∀ k, k ≠ i → (n.setLink j x).link k = n.link k := by
    intro k hk
    subst hj
    simp [Site.setLink, upd, hk]
  rcases ho with ho | rfl
  · cases hs with
    | link _ j ns l w' => exact ⟨links _ ho.1, rfl, .inl rfl⟩
    | start _ j => exact ⟨links _ ho, rfl, .inl rfl⟩
    | call _ j x k => exact ⟨links _ ho, rfl, .inr ⟨_, by cases ho; rfl⟩⟩
    | reply _ j => exact ⟨links _ ho.1, rfl, .inl rfl⟩
    | replyFails => cases ho.2
    | panic => exact ho.elim
    | fatal => exact ho.elim
    | other => exact ho.elim
  · cases hs with
    | link _ j ns l w' => exact ⟨links _ rfl, rfl, .inl rfl⟩

theorem own_step {host : Host ω H} {user : GoString} {i : Nat} {l : JobLabel ω H} {n n' : Shop ω H α} (hs : JobStep host user l n n') (ho : l.Own i) :
    (∀ j, j ≠ i → n'.site.link j = n.site.link j ∧ n'.stage j = n.stage j) ∧ n'.site.exit = n.site.exit ∧
      (n'.site.world = n.site.world ∨ ∃ e, l = .site (.call i e)) := by
  cases hs with
  | site _ l s' _ h =>
    obtain ⟨h1, h2, h3⟩ := own_site h (.inl ho)
    exact ⟨fun j hj => ⟨h1 j hj, rfl⟩, h2, h3.imp id fun ⟨e, he⟩ => ⟨e, by rw [he]⟩⟩
  | make _ j c m k s' _ _ h _ =>
    have ho : j = i := ho
    subst ho
    obtain ⟨h1, h2, h3⟩ := own_site h (i := j) (.inr rfl)
    refine ⟨fun k hk => ⟨h1 k hk, by simp [upd, hk]⟩, h2, .inl ?_⟩
    rcases h3 with h3 | ⟨e, he⟩
    · exact h3
    · cases he
  | get _ j =>
    have ho : j = i := ho
    exact ⟨fun k hk => ⟨rfl, by simp [upd, ho, hk]⟩, rfl, .inl rfl⟩

theorem own_exec {host : Host ω H} {user : GoString} {i : Nat} {R : ω → ω → Prop} (rf : ∀ a, R a a) {ls : List (JobLabel ω H)} {n n' : Shop ω H α}
    (he : JobExec host user n ls n') (ho : ∀ l ∈ ls, l.Own i) :
    GentleExec host user i R n ls n' ∧ (∀ j, j ≠ i → n'.site.link j = n.site.link j ∧ n'.stage j = n.stage j) ∧ n'.site.exit = n.site.exit := by
  induction he with
  | refl => exact ⟨.refl _, fun j _ => ⟨rfl, rfl⟩, rfl⟩
  | @step n1 n2 ls l _ hs ih =>
    obtain ⟨h1, h2, h3⟩ := ih fun l hl => ho l (by simp [hl])
    obtain ⟨g1, g2, g3⟩ := own_step hs (ho l (by simp))
    refine ⟨h1.step hs (g3.imp (fun h => by rw [h]; exact rf _) id), fun j hj => ?_, g2.trans h3⟩
    exact ⟨(g1 j hj).1.trans (h2 j hj).1, (g1 j hj).2.trans (h2 j hj).2⟩

theorem own_other {i j : Nat} (hj : j ≠ i) {l : JobLabel ω H} (ho : l.Own i) : l.Smooth j := by
  cases l with
  | site l =>
    intro x hx
    cases List.mem_singleton.1 hx
    cases l <;> first | trivial | skip
    · exact fun h => absurd (h.symm.trans ho.1) hj
    · exact fun h => absurd (h.symm.trans ho.1) hj
  | make k =>
    intro x hx
    cases List.mem_singleton.1 hx
    exact fun h => absurd (h.symm.trans ho) hj
  | get k => exact nofun

/-- client 0 writes seven, eight, nine, and client 1 reads two bytes at a time -/
def demoJobs : Nat → Job Got
  | 0 => store [lit "f"] [[7, 8], [9]]
  | 1 => fetch [lit "f"] 2 10
  | _ => .ret .failed

theorem demo_proper (i : Nat) : (demoJobs i).Proper := by
  have e : GoodPath [lit "f"] := by unfold GoodPath; decide
  match i with
  | 0 => exact store_proper e (by decide)
  | 1 => exact fetch_proper e (by decide) 10
  | _ + 2 => exact ⟨trivial, trivial⟩

/-- Client 0 writes the file, and then client 1 reads it. -/
theorem transfer_instance : ∃ (n1 n2 : Shop World Nat Got) (ls1 ls2 : List (JobLabel World Nat)),
    JobExec shortHost (lit "harvey") (Shop.start [47, 120] world0 demoJobs) ls1 n1 ∧ JobExec shortHost (lit "harvey") n1 ls2 n2 ∧
      (∀ l ∈ ls1, l.Own 0) ∧ (∀ l ∈ ls2, l.Own 1) ∧
      n1.stage 0 = .next (.ret (.whole [7, 8, 9])) ∧ n2.stage 1 = .next (.ret (.whole [7, 8, 9])) := by
  have hu : (lit "harvey").length < 2 ^ 13 := by decide
  obtain ⟨ls1, n1, a, a1, a2, a3⟩ := C98_completes shortHost_short hu [47, 120] world0 _ demo_proper _ [] (.refl _) nofun 0 nofun rfl
    (show (0 : Nat) < 65534 by decide)
  obtain ⟨-, b1, b2⟩ := own_exec (R := fun _ _ => True) (fun _ => trivial) a1 a2
  have b3 := b1 1 (by decide)
  have c1 : ∀ l ∈ ls1, l.Clean := fun l hl => (a2 l hl).fine.1
  obtain ⟨ls2, n2, a', d1, d2, d3⟩ := C98_completes shortHost_short hu [47, 120] world0 _ demo_proper _ ls1 a1 c1 1
    (fun l hl => own_other (by decide) (a2 l hl)) b2 (by rw [b3.1]; exact (show (0 : Nat) < 65534 by decide))
  have alone {i : Nat} {ls : List (JobLabel World Nat)} (h : ∀ l ∈ ls, l.Own i) : ∀ x ∈ ls.flatMap JobLabel.outside, ∃ e, x = BLabel.call i e := by
    intro x hx
    obtain ⟨l, a1, a2⟩ := List.mem_flatMap.1 hx
    exact (h l a1).fine.2.2.2 x a2
  have e1 := C98_alone shortHost_short hu [47, 120] world0 _ demo_proper n1 ls1 a1 c1 0 a a3 (alone a2)
  have e2 := C98_between shortHost_short hu [47, 120] world0 _ demo_proper n1 n2 ls1 ls2 a1 d1 (by
    intro l hl
    rcases List.mem_append.1 hl with h | h
    · exact c1 l h
    · exact (d2 l h).fine.1) 1 (demoJobs 1) (.ret a') b3.2 d3 (alone d2)
  rw [b3.1] at e2
  have e3 : (((demoJobs 0).onSpot (ufs shortHost (lit "harvey")) ((newObj [47, 120]).into world0)).map Prod.snd) = some (.whole [7, 8, 9]) := by
    decide +kernel
  have e4 : (((demoJobs 0).onSpot (ufs shortHost (lit "harvey")) ((newObj [47, 120]).into world0)).bind fun x =>
      ((demoJobs 1).onSpot (ufs shortHost (lit "harvey")) ((newObj [47, 120]).into x.1.world)).map Prod.snd) = some (.whole [7, 8, 9]) := by
    decide +kernel
  rw [e1] at e3 e4
  have e3 : some a = some (Got.whole [7, 8, 9]) := e3
  have e5 : ((demoJobs 1).onSpot (ufs shortHost (lit "harvey")) ((newObj [47, 120]).into n1.site.world)).map Prod.snd = some (.whole [7, 8, 9]) := e4
  rw [show (demoJobs 1).onSpot (ufs shortHost (lit "harvey")) ((newObj [47, 120]).into n1.site.world) = some (_, a') from e2] at e5
  have e6 : some a' = some (Got.whole [7, 8, 9]) := e5
  rw [Option.some.inj e3] at a3
  rw [Option.some.inj e6] at d3
  exact ⟨n1, n2, ls1, ls2, a1, d1, a2, d2, a3, d3⟩

/-- C99: the hypotheses are met by the two clients of the example -/
example : ∃ (n1 n2 : Shop World Nat Got) (ls1 ls2 : List (JobLabel World Nat)) (x y : Bytes),
    JobExec shortHost (lit "harvey") (Shop.start [47, 120] world0 demoJobs) [] (Shop.start [47, 120] world0 demoJobs) ∧
    shortNames.node (placeOf [47, 120] [lit "f"]) world0 = some 3 ∧
    GentleExec shortHost (lit "harvey") 0 (Leaves shortFiles shortNames 3 (placeOf [47, 120] [lit "f"])) (Shop.start [47, 120] world0 demoJobs) ls1 n1 ∧
    (∀ c, (n1.site.link 1).w.cl.phase c = .idle) ∧
    GentleExec shortHost (lit "harvey") 1 (Leaves shortFiles shortNames 3 (placeOf [47, 120] [lit "f"])) n1 ls2 n2 ∧
    (∀ l ∈ ls1 ++ ls2, l.Clean) ∧ n1.stage 0 = .next (.ret (.whole x)) ∧ n2.stage 1 = .next (.ret (.whole y)) := by
  obtain ⟨n1, n2, ls1, ls2, a1, a2, a3, a4, a5, a6⟩ := transfer_instance
  obtain ⟨b1, b2, -⟩ := own_exec Leaves.refl a1 a3
  obtain ⟨c1, -, -⟩ := own_exec Leaves.refl a2 a4
  refine ⟨n1, n2, ls1, ls2, _, _, .refl _, by decide +kernel, b1, fun c => ?_, c1, fun l hl => ?_, a5, a6⟩
  · rw [(b2 1 (by decide)).1]; rfl
  · rcases List.mem_append.1 hl with h | h
    · exact (a3 l h).fine.1
    · exact (a4 l h).fine.1

/-- the worlds in which the names and kinds of files are those of `world0` -/
def sameNames (w : World) : Prop := w.names = world0.names ∧ ∀ i, (w.nodes i).dir = (world0.nodes i).dir ∧ (w.nodes i).perm = (world0.nodes i).perm

/-- the open files of the example host -/
def memOpen (h : Nat) (w : World) : Prop := ∃ o, w.opened[h]? = some o ∧ o.isOpen = true

theorem short_stat {p : GoString} {i : Nat} {w : World} (hp : (base p).length ≤ 255) (hw : sameNames w) (hi : find p world0 = some i) :
    ∃ st, shortHost.stat p w = (w, .ok st) ∧ shortHost.lstat p w = (w, .ok st) ∧ st.mode = (info p i world0).mode := by
  have h1 : find p w = some i := by rw [← hi]; unfold find; rw [hw.1]
  refine ⟨info p i w, ?_, ?_, ?_⟩
  · simp only [shortHost, if_pos hp, Mem.host, Mem.stat, h1]
  · simp only [shortHost, if_pos hp, Mem.host, Mem.stat, h1]
  · simp only [info, (hw.2 i).1, (hw.2 i).2]

theorem qid_kind {a b : FileInfo} (h : a.mode = b.mode) : isPlain (fileInfoToQID a) = isPlain (fileInfoToQID b) := by
  have : (fileInfoToQID a).Typ = (fileInfoToQID b).Typ := by simp [fileInfoToQID, dirToQIDType, FileInfo.isDir, h]
  unfold isPlain
  rw [this]

theorem mem_reach {mode : Mode} (hm : modeToUnixFlags mode / 64 % 2 = 0) : CanReach shortHost [47, 120] [lit "f"] mode isPlain sameNames memOpen where
  attach w w' r hw h := by
    obtain ⟨st, h1, -, -⟩ := short_stat (p := placeOf [47, 120] []) (i := 1) (by decide +kernel) hw (by decide +kernel)
    rw [h1] at h
    cases h
    exact ⟨hw, st, rfl, nofun⟩
  walk ms w w' r hne hpre hw h := by
    have : ms = [lit "f"] := by
      obtain ⟨t, ht⟩ := hpre
      match ms, hne with
      | [a], _ => cases t with
        | nil => simpa using ht
        | cons => simp at ht
      | a :: b :: l, _ => simp at ht
    subst this
    obtain ⟨st, -, h1, h2⟩ := short_stat (p := placeOf [47, 120] [lit "f"]) (i := 3) (by decide +kernel) hw (by decide +kernel)
    rw [h1] at h
    cases h
    exact ⟨hw, st, rfl, fun _ => by rw [qid_kind h2]; decide +kernel⟩
  opens w w' r hw h := by
    have h1 : find (placeOf [47, 120] [lit "f"]) w = some 3 := by
      unfold find
      rw [hw.1]
      decide +kernel
    have h2 : (w.nodes 3).dir = false := (hw.2 3).1
    have h : Mem.openFile (placeOf [47, 120] [lit "f"]) (modeToUnixFlags mode) 0 w = (w', r) := h
    unfold Mem.openFile at h
    rw [h1] at h
    dsimp only at h
    rw [if_neg (by simp [h2])] at h
    by_cases ht : modeToUnixFlags mode / 512 % 2 = 1
    · rw [if_pos ht] at h
      cases h
      refine ⟨⟨hw.1, fun i => ?_⟩, _, rfl, _, List.getElem?_concat_length, rfl⟩
      have := hw.2 i
      simp only [setNode]
      split
      · rename_i hi; cases hi; exact this
      · exact this
    · rw [if_neg ht] at h
      cases h
      exact ⟨hw, _, rfl, _, List.getElem?_concat_length, rfl⟩

theorem mem_canRead : CanRead shortFiles [47, 120] [lit "f"] 3 sameNames memOpen where
  reach := mem_reach (by decide)
  reads h n off w w' x e hw ho hn hx := by
    obtain ⟨o, h1, h2⟩ := ho
    have hx : Mem.host.readAt h n off w = (w', x, e) := hx
    simp only [Mem.host, onHandle, h1, h2, if_true] at hx
    split at hx
    · rename_i hlt
      cases hx
      exact ⟨hw, ⟨o, h1, h2⟩, fun h => by omega⟩
    · cases hx
      refine ⟨hw, ⟨o, h1, h2⟩, fun _ y => ?_⟩
      split <;> simp

theorem mem_canWrite : CanWrite shortFiles [47, 120] [lit "f"] 3 sameNames memOpen where
  reach := mem_reach (by decide)
  writes h b off w w' k e hw ho hn hx := by
    obtain ⟨o, h1, h2⟩ := ho
    have hx : Mem.host.writeAt h b off w = (w', k, e) := hx
    simp only [Mem.host, onHandle, h1, h2, if_true] at hx
    split at hx
    · rename_i hlt
      cases hx
      exact ⟨hw, ⟨o, h1, h2⟩, fun h => by omega⟩
    · cases hx
      refine ⟨⟨hw.1, fun i => ?_⟩, ⟨o, h1, h2⟩, fun _ => rfl⟩
      have := hw.2 i
      simp only [setNode]
      split
      · rename_i hi; cases hi; exact this
      · exact this

/-- C99: the hypotheses of `C99_stored` are met by client 0 of the example, and those of `C99_fetched` by client 1 -/
example : ∃ (n0 n1 : Shop World Nat Got) (ls0 ls1 : List (JobLabel World Nat)) (a b : Got),
    CanWrite shortFiles [47, 120] [lit "f"] 3 sameNames memOpen ∧ CanRead shortFiles [47, 120] [lit "f"] 3 sameNames memOpen ∧ sameNames world0 ∧
    GentleExec shortHost (lit "harvey") 0 (LeavesIn shortFiles shortNames 3 (placeOf [47, 120] [lit "f"]) sameNames memOpen)
      (Shop.start [47, 120] world0 demoJobs) ls0 n0 ∧ n0.stage 0 = .next (.ret a) ∧
    GentleExec shortHost (lit "harvey") 1 (LeavesIn shortFiles shortNames 3 (placeOf [47, 120] [lit "f"]) sameNames memOpen)
      (Shop.start [47, 120] world0 demoJobs) ls1 n1 ∧ n1.stage 1 = .next (.ret b) ∧
    (∀ l ∈ ls0 ++ ls1, l.Clean) := by
  have hu : (lit "harvey").length < 2 ^ 13 := by decide
  obtain ⟨ls0, n0, a, a1, a2, a3⟩ := C98_completes shortHost_short hu [47, 120] world0 _ demo_proper _ [] (.refl _) nofun 0 nofun rfl
    (show (0 : Nat) < 65534 by decide)
  obtain ⟨ls1, n1, b, b1, b2, b3⟩ := C98_completes shortHost_short hu [47, 120] world0 _ demo_proper _ [] (.refl _) nofun 1 nofun rfl
    (show (0 : Nat) < 65534 by decide)
  refine ⟨n0, n1, ls0, ls1, a, b, mem_canWrite, mem_canRead, ⟨rfl, fun _ => ⟨rfl, rfl⟩⟩, (own_exec LeavesIn.refl a1 a2).1, a3, (own_exec LeavesIn.refl b1 b2).1, b3, fun l hl => ?_⟩
  rcases List.mem_append.1 hl with h | h
  · exact (a2 l h).fine.1
  · exact (b2 l h).fine.1

end

end Ninep.Client
