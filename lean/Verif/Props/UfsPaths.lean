import Verif.Props.Ufs

set_option linter.unusedSimpArgs false
set_option linter.unusedVariables false

/-
Confinement of the file server to its root (C39, C40).  Paths are lexical: what symbolic links on the
host do is a matter of the host.
-/

namespace Ninep.Ufs
open Spec

section
variable {ω H : Type} (user : GoString)

/-- the two hosts do the same for paths at or below `root`, and for open files -/
structure AgreeBelow (root : Root) (a b : Host ω H) : Prop where
  lstat : ∀ p, Below root p → a.lstat p = b.lstat p
  stat : ∀ p, Below root p → a.stat p = b.stat p
  openFile : ∀ p, Below root p → a.openFile p = b.openFile p
  mkdir : ∀ p, Below root p → a.mkdir p = b.mkdir p
  chmod : ∀ p, Below root p → a.chmod p = b.chmod p
  rename : ∀ p q, Below root p → Below root q → a.rename p q = b.rename p q
  truncate : ∀ p, Below root p → a.truncate p = b.truncate p
  chtimes : ∀ p, Below root p → a.chtimes p = b.chtimes p
  remove : ∀ p, Below root p → a.remove p = b.remove p
  close : a.close = b.close
  sync : a.sync = b.sync
  seek0 : a.seek0 = b.seek0
  readdir1 : a.readdir1 = b.readdir1
  readAt : a.readAt = b.readAt
  writeAt : a.writeAt = b.writeAt

/-- the place of the export root -/
def rootPlace (s : State ω H) : Root := rootOf s.rootPath

/-- all fids lie at or below the export root -/
def Inside (s : State ω H) : Prop := ∀ i f, s.files i = some f → Below (rootPlace s) f.fullName

/-- A request with names that do not lead up: walk and create names without "..", and a new name in a wstat
that is either absolute without ".." or relative for a fid that does not stand for the root itself. -/
def Tame (s : State ω H) : TMsg → Prop
  | .walk p => ∀ n ∈ p.Paths, NoUp n
  | .create p => NoUp p.Name
  | .wstat p => ∀ d t b, unmarshaldir (Buffer.ofBytes p.B) = .done d t none b →
      d.Name = [] ∨ (d.Name.head? = some 47 ∧ NoUp d.Name) ∨
      (d.Name.head? ≠ some 47 ∧ ∀ f, s.files p.OFID = some f → f.fullName ≠ (rootPlace s).under [])
  | _ => True

theorem rootPlace_proper (s : State ω H) : (rootPlace s).Proper := rootOf_proper _

theorem below_join {root : Root} (hr : root.Proper) {p n : Bytes} (hp : Below root p) (hn : NoUp n) :
    Below root (pathJoin p n) := by
  obtain ⟨names, hnames, rfl⟩ := hp
  obtain ⟨more, hm, he⟩ := under_join hr hnames hn
  exact ⟨names ++ more, below_proper hnames hm, he⟩

theorem below_reach {root : Root} (hr : root.Proper) {p : Bytes} (hp : Below root p)
    {names : List GoString} (hn : ∀ n ∈ names, NoUp n) (k : Nat) : Below root (reach p names k) := by
  unfold reach
  induction k generalizing p names with
  | zero => simpa using hp
  | succ k ih =>
    cases names with
    | nil => simpa using hp
    | cons n names =>
      simp only [List.take_succ_cons, List.foldl_cons]
      exact ih (below_join hr hp (hn n (by simp))) fun x hx => hn x (List.mem_cons_of_mem _ hx)

theorem below_attach (s : State ω H) (aname : GoString) :
    Below (rootPlace s) (pathJoin s.rootPath (pathJoin [slash] aname)) :=
  ⟨place [] (elems aname), noRoot_proper _, attach_path _ aname⟩

/-- a place strictly below the root has its directory at or below the root -/
theorem below_dir {root : Root} (hr : root.Proper) {p : Bytes} (hp : Below root p)
    (hne : p ≠ root.under []) (n : Bytes) : Below root (pathJoin (pathDir p) (pathJoin [slash] n)) := by
  obtain ⟨names, hnames, rfl⟩ := hp
  have hnn : names ≠ [] := by rintro rfl; exact hne rfl
  have hd : ∀ n ∈ names.dropLast, Proper n := fun n hn => hnames n (List.dropLast_subset _ hn)
  rw [under_dir hr hnames hnn, pathJoin_slash, under_join_abs hr hd (noRoot_proper _)]
  exact ⟨_, below_proper hd (noRoot_proper _), rfl⟩

/-- the target of a rename -/
theorem below_rename {s : State ω H} (hs : Inside s) {fid : FID} {f : File H} (hf : s.files fid = some f)
    {name : GoString} (ht : (name.head? = some 47 ∧ NoUp name) ∨
      (name.head? ≠ some 47 ∧ ∀ f, s.files fid = some f → f.fullName ≠ (rootPlace s).under [])) :
    Below (rootPlace s) (renameTo s.rootPath f.fullName name) := by
  have iff : isAbs name = true ↔ name.head? = some 47 := by
    unfold isAbs slash
    cases name <;> simp
  unfold renameTo
  rcases ht with ⟨h1, h2⟩ | ⟨h1, h2⟩
  · rw [if_pos (iff.2 h1)]
    exact rootOf_join s.rootPath h1 h2
  · rw [if_neg (fun h => h1 (iff.1 h))]
    exact below_dir (rootPlace_proper s) (hs fid f hf) (h2 f hf) name

theorem Inside.of_frame {s s' : State ω H} (hs : Inside s) (hr : s'.rootPath = s.rootPath)
    (h : ∀ i f, s'.files i = some f → Below (rootPlace s) f.fullName) : Inside s' := by
  unfold Inside rootPlace
  rw [hr]
  exact h

theorem wstatPath_below {s : State ω H} (hs : Inside s) {p : TwstatPkt} (ht : Tame s (.wstat p)) {f : File H}
    (hf : s.files p.OFID = some f) {d : Dir} {t : Tag} {b : Buffer}
    (hd : unmarshaldir (Buffer.ofBytes p.B) = .done d t none b) : Below (rootPlace s) (wstatPath f d s) := by
  unfold wstatPath
  by_cases hn : d.Name = []
  · rw [if_neg (by simp [hn])]; exact hs _ _ hf
  · rw [if_pos hn]
    rcases ht d t b hd with h | h
    · exact absurd h hn
    · exact below_rename hs hf h

variable (host : Host ω H)

/-- All paths the names of a request lead to, one after the other, are at or below the root. -/
def Leads (s : State ω H) : TMsg → Prop
  | .walk p => ∀ f, s.files p.SFID = some f → ∀ k, Below (rootPlace s) (reach f.fullName p.Paths k)
  | .create p => ∀ f, s.files p.OFID = some f → Below (rootPlace s) (pathJoin f.fullName p.Name)
  | .wstat p => ∀ f, s.files p.OFID = some f → ∀ d t b, unmarshaldir (Buffer.ofBytes p.B) = .done d t none b →
      Below (rootPlace s) (wstatPath f d s)
  | _ => True

theorem Tame.leads {s : State ω H} (hs : Inside s) {m : TMsg} (h : Tame s m) : Leads s m := by
  cases m with
  | walk p => exact fun f hf k => below_reach (rootPlace_proper s) (hs _ _ hf) h k
  | create p => exact fun f hf => below_join (rootPlace_proper s) (hs _ _ hf) h
  | wstat p => exact fun f hf d t b hd => wstatPath_below hs h hf hd
  | _ => trivial

/-- such a request keeps every fid inside -/
theorem inside_step {m : TMsg} {s s' : State ω H} (ht : Leads s m) (hs : Inside s)
    (h : (call (ufs host user) m s).state? = some s') : Inside s' := by
  have fr := call_frame host user h
  have other : (∀ i ∈ fids m, ∀ f, s'.files i = some f → Below (rootPlace s) f.fullName) → Inside s' := by
    intro hi
    refine hs.of_frame fr.1 fun i f hf => ?_
    by_cases hm : i ∈ fids m
    · exact hi i hm f hf
    · rw [fr.2.2 i hm] at hf; exact hs i f hf
  cases m with
  | version p => exact other (by simp [fids])
  | flush p => exact other (by simp [fids])
  | attach p =>
    refine other fun i hi f hf => ?_
    simp only [fids, List.mem_singleton] at hi; subst hi
    simp only [call, state?_mapRes, ufs] at h
    rcases rattach_cases host p.SFID p.AFID p.Uname p.Aname s with ⟨w, e, he⟩ | ⟨w, g, _, _, hg, he⟩
    · rw [he] at h; simp only [NRes.state?, Option.some.injEq] at h; subst h
      exact hs _ _ hf
    · rw [he] at h; simp only [NRes.state?, Option.some.injEq] at h; subst h
      rw [set_same, Option.some.injEq] at hf; subst hf
      rw [hg]; exact below_attach _ _
  | walk p =>
    simp only [call, state?_mapRes, ufs] at h
    rcases rwalk_cases host p.SFID p.NewFID p.Paths s with ⟨w, e, he⟩ | ⟨w, q, he, hq⟩ | ⟨g, hg, hn, _, he⟩ | ⟨w, g, q, x, hg, hq, _, _, he⟩ <;>
      rw [he] at h <;> simp only [NRes.state?, Option.some.injEq] at h <;> subst h
    · exact hs
    · exact hs
    · refine hs.of_frame rfl fun i f hf => ?_
      by_cases hi : i = p.NewFID
      · subst hi; rw [set_same, Option.some.injEq] at hf; subst hf; exact hs _ _ hg
      · rw [set_other _ _ hi] at hf; exact hs _ _ hf
    · refine hs.of_frame rfl fun i f hf => ?_
      by_cases hi : i = p.NewFID
      · subst hi; rw [set_same, Option.some.injEq] at hf; subst hf
        exact ht _ hg _
      · rw [set_other _ _ hi] at hf; exact hs _ _ hf
  | open_ p =>
    refine other fun i hi f hf => ?_
    simp only [fids, List.mem_singleton] at hi; subst hi
    simp only [call, state?_mapRes, ufs] at h
    unfold ropen at h
    split at h
    · simp only [NRes.state?, Option.some.injEq] at h; subst h; exact hs _ _ hf
    · rename_i g hg
      split at h <;>
      · simp only [NRes.state?, Option.some.injEq] at h; subst h
        rw [set_same, Option.some.injEq] at hf; subst hf
        exact hs _ g hg
  | create p =>
    refine other fun i hi f hf => ?_
    simp only [fids, List.mem_singleton] at hi; subst hi
    simp only [call, state?_mapRes, ufs] at h
    unfold rcreate at h
    split at h
    · simp only [NRes.state?, Option.some.injEq] at h; subst h; exact hs _ _ hf
    · rename_i g hg
      have hb := ht _ hg
      split at h
      · simp only [NRes.state?, Option.some.injEq] at h; subst h; exact hs _ _ hf
      · dsimp only at h
        split at h
        · split at h
          · simp only [NRes.state?, Option.some.injEq] at h; subst h; exact hs _ _ hf
          · simp only [NRes.state?, Option.some.injEq] at h; subst h
            rw [set_same, Option.some.injEq] at hf; subst hf; exact hb
        · split at h
          · simp only [NRes.state?, Option.some.injEq] at h; subst h; exact hs _ _ hf
          · split at h
            · simp only [NRes.state?, Option.some.injEq] at h; subst h; exact hs _ _ hf
            · simp only [NRes.state?, Option.some.injEq] at h; subst h
              rw [set_same, Option.some.injEq] at hf; subst hf; exact hb
  | stat p =>
    simp only [call, state?_mapRes, ufs] at h
    unfold rstat at h
    split at h
    · simp only [NRes.state?, Option.some.injEq] at h; subst h; exact hs
    · split at h <;>
      · simp only [NRes.state?, Option.some.injEq] at h; subst h; exact hs
  | wstat p =>
    refine other fun i hi f hf => ?_
    simp only [fids, List.mem_singleton] at hi; subst hi
    simp only [call, state?_mapRes, ufs] at h
    cases hg : s.files p.OFID with
    | none =>
      rw [rwstat_none host hg] at h
      simp only [NRes.state?, Option.some.injEq] at h; subst h; exact hs _ _ hf
    | some g =>
      rcases rwstat_cases host (b := p.B) hg with ⟨e, he⟩ | ⟨dir, t, b', hd, ⟨_, he⟩ | ⟨e, _, he⟩⟩
      · rw [he] at h
        simp only [NRes.state?, Option.some.injEq] at h; subst h; exact hs _ _ hf
      all_goals
        rw [he] at h
        simp only [NRes.state?, Option.some.injEq] at h; subst h
        rcases (wstatRun_renamed host (dir := dir) hg).2 with h | h
        · rw [h, Option.some.injEq] at hf; subst hf; exact hs _ _ hg
        · rw [h, Option.some.injEq] at hf; subst hf
          exact ht _ hg _ _ _ hd
  | clunk p =>
    refine other fun i hi f hf => ?_
    simp only [fids, List.mem_singleton] at hi; subst hi
    simp only [call, state?_mapRes] at h
    exact absurd rfl ((clunk_state host h p.OFID).1 (by rw [hf]; rfl)).2
  | remove p =>
    refine other fun i hi f hf => ?_
    simp only [fids, List.mem_singleton] at hi; subst hi
    simp only [call, state?_mapRes] at h
    exact absurd rfl ((remove_state host h p.OFID).1 (by rw [hf]; rfl)).2
  | read p =>
    refine other fun i hi f hf => ?_
    simp only [fids, List.mem_singleton] at hi; subst hi
    simp only [call, state?_mapRes, ufs] at h
    cases hg : s.files p.OFID with
    | none =>
      unfold rread at h
      simp only [hg, NRes.state?, Option.some.injEq] at h; subst h; exact hs _ _ hf
    | some g =>
      obtain ⟨w, rfl | ⟨x, rfl, _⟩⟩ := rread_state host user hg h
      · exact hs _ _ hf
      · rw [set_same, Option.some.injEq] at hf; subst hf; exact hs _ g hg
  | write p =>
    refine other fun i hi f hf => ?_
    simp only [call, state?_mapRes, ufs] at h
    unfold rwrite at h
    split at h
    · simp only [NRes.state?, Option.some.injEq] at h; subst h; exact hs _ _ hf
    · split at h
      · simp only [NRes.state?, Option.some.injEq] at h; subst h; exact hs _ _ hf
      · split at h <;>
        · simp only [NRes.state?, Option.some.injEq] at h; subst h; exact hs _ _ hf

theorem inside_newFS (root : GoString) (w : ω) : Inside (newFS root w : State ω H) := by
  simp [Inside, newFS]

theorem inside_hist {P : State ω H → TMsg → Prop} {R : ω → ω → Prop} (hP : ∀ s m, Inside s → P s m → Leads s m) {s s' : State ω H} {h : List Event}
    (hh : Hist host user P R s h s') (hs : Inside s) : Inside s' :=
  Hist.invariant host user (I := Inside) (fun s w _ h => h) (fun s m s' hp hi hc => inside_step user host (hP s m hi hp) hi hc) hh hs

/-- C39 (not true as stated, see `C39_counterexample`): a history of requests whose names do not lead up
leaves every fid at or below the export root, without dots.  Missing: names with ".." in them. -/
theorem C39_below_partial {root : GoString} {w : ω} {s' : State ω H} {h : List Event}
    (hh : Hist host user Tame AnyWorld (newFS root w) h s') {i : FID} {f : File H} (hf : s'.files i = some f) :
    Below (rootOf root) f.fullName := by
  have hi := inside_hist user host (P := Tame) (fun _ _ hi h => h.leads hi) hh (inside_newFS root w)
  have hroot : s'.rootPath = root :=
    Hist.invariant host user (I := fun s => s.rootPath = root) (fun _ _ _ h => h)
      (fun s m s' _ hi hc => (call_frame host user hc).1.trans hi) hh rfl
  have := hi i f hf
  rwa [rootPlace, hroot] at this

/-! ### nothing outside of the root is looked at or changed -/

variable (host' : Host ω H)

theorem walkLoop_agree {root : Root} (ha : AgreeBelow root host host')
    {p : GoString} (w : ω) {names : List GoString} (hn : ∀ k, Below root (reach p names k)) :
    walkLoop host p w names = walkLoop host' p w names := by
  induction names generalizing p w with
  | nil => rfl
  | cons n ns ih =>
    unfold walkLoop
    dsimp only
    have h1 : Below root (pathJoin p n) := hn 1
    rw [ha.lstat _ h1]
    obtain ⟨w', r⟩ := host'.lstat (pathJoin p n) w
    cases r with
    | error e => rfl
    | ok st =>
      dsimp only
      rw [ih w' fun k => hn (k + 1)]

theorem andThen_congr {P : State ω H → Prop} {r : State ω H × Option GoString}
    {k k' : State ω H → State ω H × Option GoString} (h : P r.1) (hk : ∀ s, P s → k s = k' s) :
    andThen r k = andThen r k' := by
  obtain ⟨s, e⟩ := r
  cases e with
  | none => exact hk s h
  | some e => rfl

theorem wstatRun_agree {s : State ω H} {fid : FID} {f : File H} {dir : Dir}
    (ha : AgreeBelow (rootPlace s) host host') (hb : Below (rootPlace s) f.fullName)
    (hp : Below (rootPlace s) (wstatPath f dir s)) :
    wstatRun host fid f dir s = wstatRun host' fid f dir s := by
  unfold wstatRun
  dsimp only
  have h1 : wstatMode host f dir s = wstatMode host' f dir s := by
    unfold wstatMode; rw [ha.chmod _ hb]
  have h1r : (wstatMode host' f dir s).1.rootPath = s.rootPath := by
    unfold wstatMode; split <;> rfl
  rw [h1]
  refine andThen_congr (P := fun x => x.rootPath = s.rootPath) h1r fun s1 e1 => ?_
  refine andThen_congr (P := fun x => x.rootPath = s.rootPath) ?_ fun s2 e2 => ?_
  · unfold wstatUser; split <;> exact e1
  have h3 : wstatName host fid f dir s2 = wstatName host' fid f dir s2 := by
    unfold wstatName
    by_cases hn : dir.Name = []
    · rw [if_neg (by simp [hn]), if_neg (by simp [hn])]
    · unfold wstatPath at hp
      rw [if_pos hn] at hp
      rw [if_pos hn, if_pos hn]
      dsimp only
      unfold isDirNow
      rw [e2, ha.stat _ hp, ha.rename _ _ hb hp]
  rw [h3]
  refine andThen_congr (P := fun _ => True) trivial fun s3 _ => ?_
  have h4 : ∀ s3 : State ω H, wstatLength host (wstatPath f dir s) dir s3 = wstatLength host' (wstatPath f dir s) dir s3 := by
    intro s3; unfold wstatLength; rw [ha.truncate _ hp]
  rw [h4]
  refine andThen_congr (P := fun _ => True) trivial fun s4 _ => ?_
  have h5 : ∀ s3 : State ω H, wstatTimes host (wstatPath f dir s) dir s3 = wstatTimes host' (wstatPath f dir s) dir s3 := by
    intro s3; unfold wstatTimes; rw [ha.stat _ hp, ha.chtimes _ hp]
  rw [h5]
  refine andThen_congr (P := fun _ => True) trivial fun s5 _ => ?_
  unfold wstatSync
  rw [ha.sync]

theorem rwstat_eq {fid : FID} {b : Bytes} {s : State ω H} {f : File H} (h : s.files fid = some f) :
    rwstat host fid b s = match unmarshaldir (Buffer.ofBytes b) with
      | .panic => .panic
      | .done _ _ (some e) _ => .err s (decErrText e)
      | .done dir _ none _ =>
        match wstatRun host fid f dir s with
        | (s, none) => .ok s ()
        | (s, some e) => .err s e := by
  unfold rwstat; rw [h]; rfl

theorem rwstat_dir {fid : FID} {d : Dir} (hd : d.Name.length < 2 ^ 16 ∧ d.User.length < 2 ^ 16 ∧
    d.Group.length < 2 ^ 16 ∧ d.ModUser.length < 2 ^ 16) {s : State ω H} {f : File H} (h : s.files fid = some f) :
    rwstat host fid (Spec.dir d) s =
      match wstatRun host fid f d s with
      | (s, none) => .ok s ()
      | (s, some e) => .err s e := by
  rw [rwstat_eq host h]
  have := unmarshaldir_fwd d hd [] [] []
  rw [List.append_nil] at this
  rw [show Buffer.ofBytes (Spec.dir d) = ⟨[], Spec.dir d, []⟩ from rfl, this]

theorem clunk_agree {root : Root} (ha : AgreeBelow root host host') (fid : FID) (s : State ω H) :
    clunk host fid s = clunk host' fid s := by
  unfold clunk; rw [ha.close]

theorem readDir_agree {root : Root} (ha : AgreeBelow root host host') (fid : FID) (f : File H) (h : H) (c : Count)
    (s : State ω H) : readDir host user fid f h c s = readDir host' user fid f h c s := by
  unfold readDir; rw [ha.readdir1]

/-- such a request in a state with all fids inside does the same on hosts that agree below the root -/
theorem agree_step {m : TMsg} {s : State ω H} (ht : Leads s m) (hs : Inside s)
    (ha : AgreeBelow (rootPlace s) host host') : call (ufs host user) m s = call (ufs host' user) m s := by
  cases m with
  | version p => rfl
  | flush p => rfl
  | attach p =>
    simp only [call, ufs]
    unfold rattach
    dsimp only
    rw [ha.stat _ (below_attach _ _)]
  | walk p =>
    simp only [call, ufs]
    unfold rwalk
    cases hf : s.files p.SFID with
    | none => rfl
    | some f =>
      dsimp only
      rw [walkLoop_agree host host' ha s.world (ht _ hf)]
  | open_ p =>
    simp only [call, ufs]
    unfold ropen
    cases hf : s.files p.OFID with
    | none => rfl
    | some f => dsimp only; rw [ha.openFile _ (hs _ _ hf)]
  | create p =>
    simp only [call, ufs]
    unfold rcreate
    cases hf : s.files p.OFID with
    | none => rfl
    | some f =>
      dsimp only
      have hb := ht _ hf
      rw [ha.openFile _ hb, ha.lstat _ hb, ha.mkdir _ hb]
  | stat p =>
    simp only [call, ufs]
    unfold rstat
    cases hf : s.files p.OFID with
    | none => rfl
    | some f => dsimp only; rw [ha.lstat _ (hs _ _ hf)]
  | wstat p =>
    simp only [call, ufs]
    cases hf : s.files p.OFID with
    | none => rw [rwstat_none host hf, rwstat_none host' hf]
    | some f =>
      rw [rwstat_eq host hf, rwstat_eq host' hf]
      cases hd : unmarshaldir (Buffer.ofBytes p.B) with
      | panic => rfl
      | done dir t e b =>
        cases e with
        | some e => rfl
        | none =>
          dsimp only
          rw [wstatRun_agree host host' ha (hs _ _ hf) (ht _ hf _ _ _ hd)]
  | clunk p =>
    simp only [call, ufs]
    unfold rclunk
    rw [clunk_agree host host' ha]
  | remove p =>
    simp only [call, ufs]
    unfold rremove
    cases hf : s.files p.OFID with
    | none => rw [clunk_none host hf, clunk_none host' hf]
    | some f =>
      obtain ⟨w, hc, _⟩ := clunk_some host hf
      rw [← clunk_agree host host' ha, hc]
      dsimp only
      rw [ha.remove _ (hs _ _ hf)]
  | read p =>
    simp only [call, ufs]
    unfold rread
    simp only [ha.seek0, ha.readAt, readDir_agree user host host' ha]
  | write p =>
    simp only [call, ufs]
    unfold rwrite
    rw [ha.writeAt]

theorem Hist.agree {P : State ω H → TMsg → Prop} {R : ω → ω → Prop} {I : State ω H → Prop} (hw : ∀ s w, R s.world w → I s → I { s with world := w })
    (hstep : ∀ s m s', P s m → I s → (call (ufs host user) m s).state? = some s' → I s')
    (heq : ∀ s m, P s m → I s → call (ufs host user) m s = call (ufs host' user) m s)
    {s s' : State ω H} {h : List Event} (hh : Hist host user P R s h s') : I s → Hist host' user P R s h s' := by
  induction hh with
  | nil s => exact fun _ => .nil s
  | ok hp hc _ ih =>
    exact fun hi => .ok hp (by rw [← heq _ _ hp hi, hc]) (ih (hstep _ _ _ hp hi (by rw [hc]; rfl)))
  | err hp hc _ ih =>
    exact fun hi => .err hp (by rw [← heq _ _ hp hi, hc]) (ih (hstep _ _ _ hp hi (by rw [hc]; rfl)))
  | other w hr _ ih => exact fun hi => .other w hr (ih (hw _ w hr hi))

/-- C39/C40 (not true as stated): a history of requests whose names do not lead up has the same answers and
the same effects on any two hosts that agree at and below the export root.  So nothing outside is looked at,
created, renamed (from or to), removed or otherwise changed.  Missing: names with ".." in them, and a
relative new name for the root itself. -/
theorem C39_confined_partial {root : GoString} (ha : AgreeBelow (rootOf root) host host') {w : ω} {s' : State ω H} {h : List Event}
    (hh : Hist host user Tame AnyWorld (newFS root w) h s') : Hist host' user Tame AnyWorld (newFS root w) h s' := by
  refine Hist.agree user host host' (I := fun s => Inside s ∧ s.rootPath = root) (fun s w _ h => h)
    (fun s m s' hp hi hc => ⟨inside_step user host (hp.leads hi.1) hi.1 hc, (call_frame host user hc).1.trans hi.2⟩)
    (fun s m hp hi => agree_step user host host' (hp.leads hi.1) hi.1 (by unfold rootPlace; rw [hi.2]; exact ha)) hh
    ⟨inside_newFS root w, rfl⟩

/-- C40 (not true as stated, see `C40_counterexample`): a wstat that does not rename, renames to an absolute
name without "..", or renames a fid below the root to a relative name (".." allowed) only ever touches paths
at or below the root, and afterwards the fid is there. -/
theorem C40_rename_partial {fid : FID} {b : Bytes} {s : State ω H} (hs : Inside s) (ht : Tame s (.wstat ⟨fid, b⟩))
    (ha : AgreeBelow (rootPlace s) host host') :
    (ufs host user).Rwstat fid b s = (ufs host' user).Rwstat fid b s ∧
    ∀ s', ((ufs host user).Rwstat fid b s).state? = some s' → ∀ i f, s'.files i = some f →
      Below (rootPlace s) f.fullName := by
  have mp : ∀ {a b : NRes (State ω H) Unit}, mapRes (fun _ => RMsg.wstat {}) a = mapRes (fun _ => RMsg.wstat {}) b → a = b := by
    intro a b h
    cases a <;> cases b <;> simp_all [mapRes]
  refine ⟨mp (agree_step user host host' (ht.leads hs) hs ha), fun s' h i f hf => ?_⟩
  have h' : (call (ufs host user) (.wstat ⟨fid, b⟩) s).state? = some s' := by
    simp only [call, state?_mapRes]; exact h
  have hr := (call_frame host user h').1
  have := (inside_step user host (ht.leads hs) hs h') i f hf
  rwa [rootPlace, hr] at this

/-! ### export of "/" -/

theorem below_nil_join {p : Bytes} (hp : Below (.abs []) p) (n : Bytes) : Below (.abs []) (pathJoin p n) := by
  obtain ⟨names, hn, rfl⟩ := hp
  show Below (.abs []) (pathJoin (absPath ([] ++ names)) n)
  rw [List.nil_append, pathJoin_place hn]
  exact ⟨_, place_proper hn (elems_elem n), rfl⟩

theorem below_nil_dir {p : Bytes} (hp : Below (.abs []) p) : Below (.abs []) (pathDir p) := by
  obtain ⟨names, hn, rfl⟩ := hp
  show Below (.abs []) (pathDir (absPath ([] ++ names)))
  rw [List.nil_append, pathDir_place hn]
  exact ⟨_, fun n h => hn n (List.dropLast_subset _ h), rfl⟩

/-- if the root is "/", no name leads out of it -/
theorem leads_of_slash {s : State ω H} (hs : Inside s) (hroot : rootPlace s = .abs []) (m : TMsg) : Leads s m := by
  have hb : ∀ {i f}, s.files i = some f → Below (.abs []) f.fullName := fun {i f} h => hroot ▸ hs i f h
  cases m with
  | walk p =>
    intro f hf k
    rw [hroot]
    unfold reach
    have : ∀ (l : List GoString) (q : Bytes), Below (.abs []) q → Below (.abs []) (l.foldl pathJoin q) := by
      intro l
      induction l with
      | nil => exact fun q h => h
      | cons n l ih => exact fun q h => ih _ (below_nil_join h n)
    exact this _ _ (hb hf)
  | create p => intro f hf; rw [hroot]; exact below_nil_join (hb hf) _
  | wstat p =>
    intro f hf d t b hd
    rw [hroot]
    unfold wstatPath
    split
    · unfold renameTo
      split
      · rename_i hn hab
        have hh : d.Name.head? = some 47 := by
          unfold isAbs slash at hab
          cases hd : d.Name with
          | nil => rw [hd] at hab; simp at hab
          | cons x l => rw [hd] at hab; simpa using hab
        rw [pathJoin_rootOf _ hh, show rootOf s.rootPath = .abs [] from hroot]
        exact ⟨_, noRoot_proper d.Name, rfl⟩
      · exact below_nil_join (below_nil_dir (hb hf)) _
    · exact hb hf
  | _ => trivial

/-- C39 for the default root "/": whatever the requests, every fid has an absolute path without dots, empty
elements or a trailing slash. -/
theorem C39_default_root {root : GoString} (hroot : rootOf root = .abs [])
    {w : ω} {s' : State ω H} {h : List Event} (hh : Hist host user AnyReq AnyWorld (newFS root w) h s')
    {i : FID} {f : File H} (hf : s'.files i = some f) :
    ∃ names, (∀ n ∈ names, Proper n) ∧ f.fullName = absPath names := by
  have hi : Inside s' ∧ s'.rootPath = root := by
    refine Hist.invariant host user (I := fun s => Inside s ∧ s.rootPath = root) (fun s w _ h => h)
      (fun s m s' _ hi hc => ⟨inside_step user host (leads_of_slash hi.1 (by rw [rootPlace, hi.2, hroot]) m) hi.1 hc,
        (call_frame host user hc).1.trans hi.2⟩) hh ⟨inside_newFS root w, rfl⟩
  have := hi.1 i f hf
  rw [rootPlace, hi.2, hroot] at this
  exact this

/-- what the elements of a list of names are -/
def allElems (names : List GoString) : List Bytes := names.flatMap elems

/-- where a walk leads, whatever the names: its elements are followed one after the other -/
theorem C39_walk_place {es : List Bytes} (hes : ∀ e ∈ es, Proper e) (names : List GoString) (k : Nat) :
    reach (absPath es) names k = absPath (place es (allElems (names.take k))) := by
  unfold reach
  generalize names.take k = l
  induction l generalizing es with
  | nil => rfl
  | cons n l ih =>
    rw [List.foldl_cons, pathJoin_place hes, ih (place_proper hes (elems_elem n))]
    unfold allElems
    rw [List.flatMap_cons, place_append]

/-- the same from a relative path -/
theorem C39_walk_place_rel {p : RelPlace} (hp : ∀ e ∈ p.names, Proper e) (names : List GoString) (k : Nat) :
    reach p.path names k = (p.place (allElems (names.take k))).path := by
  unfold reach
  generalize names.take k = l
  induction l generalizing p with
  | nil => rfl
  | cons n l ih =>
    rw [List.foldl_cons, pathJoin_relPlace hp, ih (p.place_names (elems_elem n) hp)]
    unfold allElems
    rw [List.flatMap_cons, RelPlace.place_append]

end

/-! ### Examples and counterexamples -/

open Mem

theorem root_x : rootOf [47, 120] = .abs [[120]] := by
  unfold rootOf
  rw [if_pos (.inr rfl), elems_slash, elems_cons (by decide)]
  simp [elems_nil, place, follow]

/-- C39 does not hold: "/x" is exported, and after walking "..", "etc" fid 1 is "/etc", which can be read -/
theorem C39_counterexample :
    ((runAll [attach0, .walk { SFID := 0, NewFID := 1, Paths := [[46, 46], [101, 116, 99]] }] demo).2.files 1).map (·.fullName)
      = some [47, 101, 116, 99] ∧
    ¬ Below (rootPlace demo) [47, 101, 116, 99] ∧
    (runAll [attach0, .walk { SFID := 0, NewFID := 1, Paths := [[46, 46], [101, 116, 99]] },
      .open_ { OFID := 1, Omode := 0 }, .read { OFID := 1, Off := 0, Len := 10 }] demo).1.getLast? =
      some (some (.ok (.read { Data := [9] }))) := by
  refine ⟨rfl, ?_, rfl⟩
  rw [show rootPlace demo = .abs [[120]] from root_x]
  rintro ⟨names, hn, h⟩
  simp [Root.under, absPath] at h

/-- C39 does not hold for create: the name "../n" creates "/n" -/
theorem C39_counterexample_create :
    ((runAll [attach0, .create { OFID := 0, Name := [46, 46, 47, 110], CreatePerm := 0o644, Omode := 1 }] demo).2.files 0).map
      (·.fullName) = some [47, 110] ∧
    ((runAll [attach0, .create { OFID := 0, Name := [46, 46, 47, 110], CreatePerm := 0o644, Omode := 1 }] demo).2.world.names.length = 6) :=
  ⟨rfl, rfl⟩

/-- a stat record that only renames -/
def renameDir (name : GoString) : Dir :=
  { Mode := 0xFFFFFFFF, Atime := 0xFFFFFFFF, Mtime := 0xFFFFFFFF, Length := 0xFFFFFFFFFFFFFFFF, Name := name }

/-- C40 does not hold: the absolute name "/../p" moves "/x/f" to "/p" -/
theorem C40_counterexample :
    ∃ s', rwstat host 1 (Spec.dir (renameDir [47, 46, 46, 47, 112])) (runAll [attach0, walk1] demo).2 = .ok s' () ∧
      (s'.files 1).map (·.fullName) = some [47, 112] ∧
      s'.world.names.map (·.1) = [[47], [47, 120], [47, 120, 47, 100], [47, 101, 116, 99], [47, 112]] := by
  rw [rwstat_dir host (d := renameDir [47, 46, 46, 47, 112]) (by decide) rfl]
  exact ⟨_, rfl, rfl, rfl⟩

/-- C40 does not hold: the relative name "p" for the root fid moves "/x" to "/p" -/
theorem C40_counterexample_root :
    ∃ s', rwstat host 0 (Spec.dir (renameDir [112])) (runAll [attach0] demo).2 = .ok s' () ∧
      (s'.files 0).map (·.fullName) = some [47, 112] := by
  rw [rwstat_dir host (d := renameDir [112]) (by decide) rfl]
  exact ⟨_, rfl, rfl⟩

theorem noUp_elem {n : Bytes} (h0 : n ≠ []) (h1 : 47 ∉ n) (h2 : n ≠ [46, 46]) : NoUp n := by
  have := elems_absPath' (es := [n]) (by simpa using ⟨h0, h1⟩)
  rw [show absPath [n] = 47 :: n by simp [absPath], elems_slash] at this
  unfold NoUp
  rw [this]
  simpa using Ne.symm h2

/-- C39: the roots "/" and "" -/
example : rootOf [47] = .abs [] ∧ rootOf [] = .abs [] := by
  unfold rootOf
  rw [if_pos (.inr rfl), if_pos (.inl rfl), elems_slash, elems_nil]
  exact ⟨rfl, rfl⟩

/-- C39: the relative root "../x/.", and a path below it -/
example : rootOf [46, 46, 47, 120, 47, 46] = .rel { ups := 1, names := [[120]] } ∧
    Below (rootOf [46, 46, 47, 120, 47, 46]) [46, 46, 47, 120, 47, 102] := by
  have h : rootOf [46, 46, 47, 120, 47, 46] = .rel { ups := 1, names := [[120]] } := by
    unfold rootOf
    rw [if_neg (by decide), show elems [46, 46, 47, 120, 47, 46] = elems (slashed [[46, 46], [120], [46]]) from rfl,
      elems_slashed (by unfold Elem; decide)]
    rfl
  rw [h]
  exact ⟨rfl, [[102]], by unfold Proper; decide, rfl⟩

/-- C39, C40: a tame history with a walk and a create, then a tame rename -/
example : ∃ h s', Hist host [103] Tame AnyWorld demo h s' ∧ h.length = 3 ∧
    Tame s' (.wstat { OFID := 1, B := Spec.dir (renameDir [112]) }) ∧ Inside s' ∧
    ∃ s'', rwstat host 1 (Spec.dir (renameDir [112])) s' = .ok s'' () ∧
      (s''.files 1).map (·.fullName) = some [47, 120, 47, 112] := by
  have hh : Hist host [103] Tame AnyWorld demo _ (runAll [attach0, walk1,
      .create { OFID := 0, Name := [46, 46, 46], CreatePerm := 0o644, Omode := 1 }] demo).2 :=
    .ok (m := attach0) trivial rfl (.ok (m := walk1) (by
      intro n hn
      simp only [walk1, List.mem_singleton] at hn
      subst hn
      exact noUp_elem (by decide) (by decide) (by decide)) rfl
      (.ok (m := .create { OFID := 0, Name := [46, 46, 46], CreatePerm := 0o644, Omode := 1 })
        (noUp_elem (by decide) (by decide) (by decide)) rfl (.nil _)))
  refine ⟨_, _, hh, rfl, ?_, inside_hist [103] host (fun _ _ hi h => h.leads hi) hh (inside_newFS _ _), ?_⟩
  rotate_left
  · rw [rwstat_dir host (d := renameDir [112]) (by decide) rfl]
    exact ⟨_, rfl, rfl⟩
  · intro d t b hd
    have := unmarshaldir_fwd (renameDir [112]) (by unfold DirFits; decide) [] [] []
    rw [List.append_nil] at this
    have hd' : unmarshaldir ⟨[], Spec.dir (renameDir [112]), []⟩ = .done d t none b := hd
    rw [this] at hd'
    simp only [Unm.done.injEq] at hd'
    obtain ⟨rfl, _⟩ := hd'
    refine .inr (.inr ⟨by decide, ?_⟩)
    intro f hf
    have : f.fullName = [47, 120, 47, 102] := by
      have : (runAll [attach0, walk1, .create { OFID := 0, Name := [46, 46, 46], CreatePerm := 0o644, Omode := 1 }] demo).2.files 1
        = some { fullName := [47, 120, 47, 102], qid := { Version := 1000000, Path := 3 } } := rfl
      rw [this] at hf
      exact (Option.some.inj hf) ▸ rfl
    rw [this]
    have hr : rootPlace (runAll [attach0, walk1, .create { OFID := 0, Name := [46, 46, 46], CreatePerm := 0o644, Omode := 1 }] demo).2 = .abs [[120]] := by
      exact root_x
    rw [hr]
    decide

end Ninep.Ufs
