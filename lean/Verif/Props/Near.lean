import Verif.Lemmas.Near

set_option linter.unusedSimpArgs false
set_option linter.unusedVariables false

/-!
# Clients that do not disturb each other (C102)
-/

namespace Ninep.Client
open Spec Ufs
variable {ω H α : Type}

/-! ### the statement -/

/-- What the calls of a client are to a file at the path `p`, if its fids only stand for the paths `A` and it only writes through
the fids `W`: it gives fids no paths beyond `A`; it does not truncate, create or write anything but files at other paths; and what it removes
and renames is not on the path `p`. -/
def Mannered (root p : GoString) (other : GoString → Prop) (A : FID → GoString → Prop) (W : FID → Prop) : TMsg → Prop
  | .attach m => A m.SFID (pathJoin root (pathJoin [47] m.Aname))
  | .walk m => (∀ q, A m.SFID q → A m.NewFID (m.Paths.foldl pathJoin q)) ∧ (m.Paths = [] → W m.NewFID → W m.SFID)
  | .open_ m => m.Omode &&& OTRUNC = 0 ∨ ∀ q, A m.OFID q → other q
  | .create m => ∀ q, A m.OFID q → A m.OFID (pathJoin q m.Name) ∧ other (pathJoin q m.Name)
  | .write m => W m.OFID
  | .remove m => ∀ q, A m.OFID q → Apart p q
  | .wstat m => ∀ dir, Wants m dir → ∀ q, A m.OFID q →
      (dir.Name ≠ [] → A m.OFID (renameTo root q dir.Name) ∧ Apart p q ∧ Apart p (renameTo root q dir.Name)) ∧
      (dir.Length ≠ 0xFFFFFFFFFFFFFFFF → (dir.Name = [] → other q) ∧ (dir.Name ≠ [] → other (renameTo root q dir.Name)))
  | _ => True

section
variable {ν : Type} {host : Host ω H} {user : GoString}

/-- A host without links: `other p q` says that the paths `p` and `q` are not the same, `strange v h` that the open file `h` is
not the file `v`.  What is opened or truncated at one path is not the file at another. -/
structure Linkless (V : FileView host ν) (N : NameView host ν) where
  other : GoString → GoString → Prop
  strange : ν → H → ω → Prop
  node : ∀ {v h w}, strange v h w → V.node h w ≠ some v
  keeps : ∀ {v h w} c, strange v h w → strange v h (host.exec c w).1
  opened : ∀ {p q fl m w w' h v}, N.node p w = some v → other p q → host.openFile q fl m w = (w', .ok h) → strange v h w'
  open_at : ∀ {p q fl m w v}, N.node p w = some v → other p q → CalmAt host V v w (host.openFile q fl m w).1
  truncate_at : ∀ {p q s w v}, N.node p w = some v → other p q → CalmAt host V v w (host.truncate q s w).1

/-- an execution in which what other processes do is in `R` -/
inductive QuietExec (host : Host ω H) (user : GoString) (R : ω → ω → Prop) : Shop ω H α → List (JobLabel ω H) → Shop ω H α → Prop
  | refl (n : Shop ω H α) : QuietExec host user R n [] n
  | step {n n' n'' : Shop ω H α} {ls : List (JobLabel ω H)} {l : JobLabel ω H} : QuietExec host user R n ls n' → JobStep host user l n' n'' →
      (∀ w, l = .site (.other w) → R n'.site.world w) → QuietExec host user R n (ls ++ [l]) n''

theorem QuietExec.exec {R : ω → ω → Prop} {n n' : Shop ω H α} {ls : List (JobLabel ω H)} (h : QuietExec host user R n ls n') : JobExec host user n ls n' := by
  induction h with
  | refl => exact .refl _
  | step _ hs _ ih => exact ih.step hs

/-- other processes leave the file alone, and do not make another open file be this one -/
def LetBe {V : FileView host ν} {N : NameView host ν} (L : Linkless V N) (v : ν) (p : GoString) (w w' : ω) : Prop :=
  Leaves V N v p w w' ∧ ∀ h, L.strange v h w → L.strange v h w'

/-! ### which message a goroutine works on -/

theorem job_asked {host : Host ω H} (hh : host.Short) {user : GoString} (hu : user.length < 2 ^ 13) {root : GoString} {w : ω}
    {jobs : Nat → Job α} (hj : ∀ i, (jobs i).Proper) {n : Shop ω H α} {ls : List (JobLabel ω H)}
    (he : JobExec host user (Shop.start root w jobs) ls n) (hl : ∀ l ∈ ls, l.Clean) {j : Nat} {got : Bytes} (hg : (n.site.link j).w.srvRd = .body got 0) :
    ∃ m, (∀ P : TMsg → Prop, (jobs j).All P → P m) ∧ ∀ spare m', PacketAsks (got.getD 4 0) ⟨[], got.drop 5, spare⟩ m' → m' = m := by
  obtain ⟨h1, h2, h3, h4⟩ := job_exec hh hu hj he hl
  obtain ⟨bls, h, cur, -, g⟩ := site_reached hh hu h1 h2 h3
  obtain ⟨c, y, hw, -⟩ := (g.link j).streams.request (g.inv.inv j) (h2.fit j) hg
  obtain ⟨m, t, -, hm, hq⟩ := (g.inv.inv j).wire (c, got) (by show (c, got) ∈ (n.site.link j).w.cl.wire; rw [hw]; simp)
  dsimp only at hm hq
  obtain ⟨-, hf, hln⟩ := h2.fit j c m hm
  obtain ⟨-, p1, p2⟩ := packet_framing m t (hln t)
  obtain ⟨xs, hx⟩ := h4 j
  have hfr : Fresh (n.site.link j).w.cl := (later_exec (fun _ _ _ => rfl) h1).1 j
  refine ⟨m, fun P hP => ?_, fun spare m' ha => ?_⟩
  · obtain ⟨ha, hb⟩ := hx.after.all hP
    have hm : (n.site.link j).w.cl.msg c = some m := hm
    have hc := (hx.made c).1 fun he => by rw [hfr c he] at hm; cases hm
    rcases List.mem_append.1 hc with hc | hc
    · obtain ⟨x, hx', rfl⟩ := List.mem_map.1 hc
      have := (hx.done x hx').1
      rw [hm] at this
      cases this
      exact hb x.2 (List.mem_map.2 ⟨x, hx', rfl⟩)
    · cases hst : n.stage j with
      | next => rw [hst] at hc; cases hc
      | waits d m' k =>
        rw [hst] at hc ha
        cases List.mem_singleton.1 hc
        have := hx.waits _ _ _ hst
        rw [hm] at this
        cases this
        exact ha.1
  · rw [hq, p1, p2] at ha
    exact asks_body hf ha


/-! ### one call -/

theorem and_trunc {f : Nat} (h : f &&& O_TRUNC = 0) : f / 512 % 2 = 0 := by
  have := congrArg (Nat.testBit · 9) h
  simp only [Nat.testBit_and, show (O_TRUNC : Nat) = 2 ^ 9 from rfl, Nat.testBit_two_pow_self, Nat.zero_testBit, Bool.and_true] at this
  rw [Nat.testBit_eq_decide_div_mod_eq] at this
  have h1 : ¬ f / 2 ^ 9 % 2 = 1 := by simpa using this
  omega

theorem and_create {f : Nat} (h : f &&& O_CREATE = 0) : f / 64 % 2 = 0 := by
  have := congrArg (Nat.testBit · 6) h
  simp only [Nat.testBit_and, show (O_CREATE : Nat) = 2 ^ 6 from rfl, Nat.testBit_two_pow_self, Nat.zero_testBit, Bool.and_true] at this
  rw [Nat.testBit_eq_decide_div_mod_eq] at this
  have h1 : ¬ f / 2 ^ 6 % 2 = 1 := by simpa using this
  omega

/-- the fids stand for paths in `A` -/
def Typed (A : FID → GoString → Prop) (o : Obj H) : Prop := ∀ f x, o.files f = some x → A f x.fullName

theorem mannered_quiet {root p : GoString} {other : GoString → Prop} {A : FID → GoString → Prop} {W : FID → Prop} {m : TMsg} {o : Obj H}
    (hm : Mannered root p other A W m) (hA : Typed A o) {c : HCall H} (hc : MayCall root o.files m c) : ¬ Disturbs c p := by
  intro hd
  cases m <;> cases c <;> first | exact hd | exact hc | skip
  · obtain ⟨f, dir, hf, hw, -, hn, rfl, rfl⟩ := hc
    obtain ⟨-, h1, h2⟩ := (hm dir hw _ (hA _ _ hf)).1 hn
    exact hd ⟨h1, h2⟩
  · obtain ⟨f, hf, rfl⟩ := hc
    exact hd (hm _ (hA _ _ hf))

variable {V : FileView host ν} {N : NameView host ν}

theorem mannered_calm (L : Linkless V N) {root p : GoString} {A : FID → GoString → Prop} {W : FID → Prop} {m : TMsg} {o : Obj H} {w : ω} {v : ν}
    (hm : Mannered root p (L.other p) A W m) (hA : Typed A o) (hW : HeldBy W (L.strange v · w) o) (hv : N.node p w = some v)
    {c : HCall H} (hc : MayCall root o.files m c) : CalmAt host V v w (host.exec c w).1 := by
  have op : ∀ {q fl pm}, fl &&& O_CREATE = 0 → fl &&& O_TRUNC = 0 → CalmAt host V v w (host.openFile q fl pm w).1 :=
    fun h1 h2 => Calm.at host (V.open_calm _ _ _ _ (and_trunc h2) (and_create h1)) v
  cases c with
  | lstat q => exact Calm.at host (V.lstat_calm q w) v
  | stat q => exact Calm.at host (V.stat_calm q w) v
  | mkdir q pm => exact Calm.at host (V.mkdir_calm q pm w) v
  | chmod q pm => exact Calm.at host (V.chmod_calm q pm w) v
  | rename q q' => exact Calm.at host (V.rename_calm q q' w) v
  | chtimes q a b => exact Calm.at host (V.chtimes_calm q a b w) v
  | remove q => exact Calm.at host (V.remove_calm q w) v
  | close h => exact Calm.at host (V.close_calm h w) v
  | sync h => exact Calm.at host (V.sync_calm h w) v
  | seek0 h => exact Calm.at host (V.seek_calm h w) v
  | readdir1 h => exact Calm.at host (V.readdir_calm h w) v
  | readAt h n off => exact Calm.at host (V.read_calm h n off w) v
  | openFile q fl pm =>
    cases m <;> first | exact hc.elim | skip
    · obtain ⟨f, hf, rfl, -, h1, h2, -⟩ := hc
      rcases hm with hm | hm
      · exact op h1 (h2 hm)
      · exact L.open_at hv (hm _ (hA _ _ hf))
    · obtain ⟨f, hf, -, rfl, -⟩ := hc
      exact L.open_at hv (hm _ (hA _ _ hf)).2
  | truncate q s =>
    cases m <;> first | exact hc.elim | skip
    obtain ⟨f, dir, hf, hw, -, hmv, hl, -⟩ := hc
    obtain ⟨h1, h2⟩ := (hm dir hw _ (hA _ _ hf)).2 hl
    rcases hmv with ⟨hn, rfl⟩ | ⟨hn, rfl⟩
    · exact L.truncate_at hv (h1 hn)
    · exact L.truncate_at hv (h2 hn)
  | writeAt h b off =>
    cases m <;> first | exact hc.elim | skip
    obtain ⟨f, hf, hh, -⟩ := hc
    have := V.write_calm h b off w
    exact ⟨this.1, this.2 v (L.node (hW _ _ _ hm hf hh))⟩

theorem mannered_opens (L : Linkless V N) {root p : GoString} {A : FID → GoString → Prop} {W : FID → Prop} {m : TMsg} {o : Obj H} {w : ω} {v : ν}
    (hm : Mannered root p (L.other p) A W m) (hA : Typed A o) (hWA : ∀ f q, W f → A f q → L.other p q) (hv : N.node p w = some v)
    {c : HCall H} (hc : MayCall root o.files m c) (ho : OpensFor W m) {h : H} (hh : Ev.gives ⟨c, (host.exec c w).2⟩ = some h) :
    L.strange v h (host.exec c w).1 := by
  cases c <;> first | cases hh | skip
  rename_i q fl pm
  show L.strange v h (host.openFile q fl pm w).1
  change Ev.gives ⟨.openFile q fl pm, (host.openFile q fl pm w).2⟩ = some h at hh
  generalize hx : host.openFile q fl pm w = x at hh ⊢
  obtain ⟨w', r⟩ := x
  cases r with
  | error e => cases hh
  | ok h' =>
    cases hh
    cases m <;> first | exact hc.elim | skip
    · obtain ⟨f, hf, rfl, -⟩ := hc
      exact L.opened hv (hWA _ _ ho (hA _ _ hf)) hx
    · obtain ⟨f, hf, -, rfl, -⟩ := hc
      exact L.opened hv (hm _ (hA _ _ hf)).2 hx

theorem mannered_typed {root p : GoString} {other : GoString → Prop} {A : FID → GoString → Prop} {W : FID → Prop} {m : TMsg} {o o' : Obj H}
    (hm : Mannered root p other A W m) (hr : o.rootPath = root) (hA : Typed A o) (hn : NamedBy o (Coined o m) o') : o'.rootPath = root ∧ Typed A o' := by
  refine ⟨hn.1.trans hr, fun f x hx => ?_⟩
  rcases hn.2 f x hx with ⟨g, hg, he⟩ | hc
  · rw [he]; exact hA _ _ hg
  · cases m <;> first | exact hc.elim | skip
    · obtain ⟨rfl, he⟩ := hc
      rw [he, hr]
      exact hm
    · obtain ⟨rfl, g, hg, he⟩ := hc
      rw [he]
      exact hm.1 _ (hA _ _ hg)
    · obtain ⟨rfl, g, hg, he⟩ := hc
      rw [he]
      exact (hm _ (hA _ _ hg)).1
    · obtain ⟨rfl, g, dir, hg, hw, hn, he⟩ := hc
      rw [he, hr]
      exact ((hm dir hw _ (hA _ _ hg)).1 hn).1

theorem mannered_shares {root p : GoString} {other : GoString → Prop} {A : FID → GoString → Prop} {W : FID → Prop} {m : TMsg}
    (hm : Mannered root p other A W m) : SharesFor W m := by
  cases m <;> first | trivial | exact hm.2


/-! ### whole executions -/

/-- what the programs of all clients are to the file `v` at the path `p`: those of the others are well-mannered, that of client `i` moves
and removes nothing on the path -/
structure Peace (L : Linkless V N) (i : Nat) (root p : GoString) (jobs : Nat → Job α) where
  A : Nat → FID → GoString → Prop
  W : Nat → FID → Prop
  apart : ∀ j, j ≠ i → ∀ f q, W j f → A j f q → L.other p q
  others : ∀ j, j ≠ i → (jobs j).All (Mannered root p (L.other p) (A j) (W j))
  own : (jobs i).All (Mannered root p (fun _ => True) (A i) fun _ => True)

/-- what a goroutine still has to do, for client `j` -/
def Peace.Work {L : Linkless V N} {i : Nat} {root p : GoString} {jobs : Nat → Job α} (P : Peace L i root p jobs) (v : ν) (j : Nat) (o : Obj H) (w : ω)
    (q : Prog H (Ufs.Served H)) : Prop :=
  ∃ m prev, (if j = i then Mannered root p (fun _ => True) (P.A i) (fun _ => True) m else Mannered root p (L.other p) (P.A j) (P.W j) m) ∧
    q.Safe (fun _ c => MayCall root o.files m c) (fun r => NamedBy o (Coined o m) r.1) prev ∧
    (j ≠ i → YieldsTo (P.W j) (OpensFor (P.W j) m) (L.strange v · w) q)

structure Peace.Inv {L : Linkless V N} {i : Nat} {root p : GoString} {jobs : Nat → Job α} (P : Peace L i root p jobs) (v : ν) (s : Site ω H) : Prop where
  at_ : N.node p s.world = some v
  typed : ∀ j, (s.link j).w.srv.ns.rootPath = root ∧ Typed (P.A j) (s.link j).w.srv.ns
  held : ∀ j, j ≠ i → HeldBy (P.W j) (L.strange v · s.world) (s.link j).w.srv.ns
  work : ∀ j q, (s.link j).running = some q → P.Work v j (s.link j).w.srv.ns s.world q

section
variable {L : Linkless V N} {i : Nat} {root p : GoString} {jobs : Nat → Job α} {P : Peace L i root p jobs} {v : ν}

theorem Peace.Work.later {j : Nat} {o : Obj H} {w w' : ω} {q : Prog H (Ufs.Served H)} (h : P.Work v j o w q)
    (hw : ∀ x, L.strange v x w → L.strange v x w') : P.Work v j o w' q := by
  obtain ⟨m, prev, h1, h2, h3⟩ := h
  exact ⟨m, prev, h1, h2, fun hj => (h3 hj).mono id hw fun _ _ _ hS hh => hh.mono hS⟩

theorem Peace.Inv.later {s : Site ω H} (h : P.Inv v s) {w : ω} (hn : N.node p w = some v) (hw : ∀ x, L.strange v x s.world → L.strange v x w) :
    P.Inv v { s with world := w } :=
  ⟨hn, h.typed, fun j hj => (h.held j hj).mono hw, fun j q hq => (h.work j q hq).later hw⟩

theorem Peace.Inv.set {s : Site ω H} (h : P.Inv v s) (j : Nat) (l : Link H) (h1 : l.w.srv.ns.rootPath = root ∧ Typed (P.A j) l.w.srv.ns)
    (h2 : j ≠ i → HeldBy (P.W j) (L.strange v · s.world) l.w.srv.ns) (h3 : ∀ q, l.running = some q → P.Work v j l.w.srv.ns s.world q) :
    P.Inv v (s.setLink j l) := by
  refine ⟨h.at_, fun k => ?_, fun k hk => ?_, fun k q => ?_⟩
  all_goals by_cases hkj : k = j
  · subst hkj; simpa [Site.setLink, upd] using h1
  · simpa [Site.setLink, upd, hkj] using h.typed k
  · subst hkj; simpa [Site.setLink, upd] using h2 hk
  · simpa [Site.setLink, upd, hkj] using h.held k hk
  · subst hkj; simpa [Site.setLink, upd] using h3 q
  · simpa [Site.setLink, upd, hkj] using h.work k q

theorem safe_and {β : Type} {P P' : Option (Ev H) → HCall H → Prop} {Q Q' : β → Prop} {prev : Option (Ev H)} {q : Prog H β}
    (h : q.Safe P Q prev) (h' : q.Safe P' Q' prev) : q.Safe (fun x c => P x c ∧ P' x c) (fun a => Q a ∧ Q' a) prev := by
  induction q generalizing prev with
  | ret a => exact ⟨h, h'⟩
  | panic => trivial
  | call c k ih => exact ⟨⟨h.1, h'.1⟩, fun a => ih a (h.2 a) (h'.2 a)⟩

theorem wstep_waits {ns : NineServer (Obj H)} {l : WLabel} {w w' : Wired (Obj H)} (h : WStep ns l w w') (hw : Waits w w') : w'.srv = w.srv := by
  cases h <;> first | rfl | skip
  all_goals
    exfalso
    rename_i hg _ 
    have := hw _ hg
    cases this

theorem peace_step (hh : host.Short) (hu : user.length < 2 ^ 13) {w : ω} (hj : ∀ i, (jobs i).Proper) {n : Shop ω H α} {ls : List (JobLabel ω H)}
    (he : JobExec host user (Shop.start root w jobs) ls n) (hl : ∀ l ∈ ls, l.Clean) (hP : P.Inv v n.site) {l : SiteLabel ω H} {s' : Site ω H}
    (hs : SiteStep host user l n.site s') (ho : ∀ w, l = .other w → LetBe L v p n.site.world w) :
    P.Inv v s' ∧ (Leaves V N v p n.site.world s'.world ∨ ∃ e, l = .call i e) := by
  cases hs with
  | link _ j ns l w' hst hw hx =>
    refine ⟨?_, .inl (Leaves.refl _)⟩
    have e := wstep_waits hst hw
    refine hP.set j _ ?_ ?_ ?_
    · show w'.srv.ns.rootPath = root ∧ Typed _ w'.srv.ns
      rw [e]; exact hP.typed j
    · show j ≠ i → HeldBy _ _ w'.srv.ns
      rw [e]; exact hP.held j
    · show ∀ q, _ → P.Work v j w'.srv.ns _ q
      rw [e]; exact hP.work j
  | start _ j got spare hx hr hg =>
    refine ⟨?_, .inl (Leaves.refl _)⟩
    refine hP.set j _ (hP.typed j) (hP.held j) fun q hq => ?_
    cases hq
    obtain ⟨m, h1, h2⟩ := job_asked hh hu hj he hl hg
    refine ⟨m, none, ?_, ?_, fun hji => ?_⟩
    · split
      · subst j; exact h1 _ P.own
      · rename_i hji; exact h1 _ (P.others j hji)
    · exact (safe_and (means_dispatch user none _ _ _) (named_dispatch none user _ _ _)).mono
        (fun _ c hc => by obtain ⟨⟨m', h3, h4⟩, -⟩ := hc; rw [h2 _ _ h3, (hP.typed j).1] at h4; exact h4)
        fun r hr => ⟨hr.2.1, fun f x hx => (hr.2.2 f x hx).imp id fun ⟨m', h3, h4⟩ => by rw [h2 _ _ h3] at h4; exact h4⟩
    · refine yields_dispatch (hP.held j hji) _ _ _ _ fun m' hm' => ?_
      rw [h2 _ _ hm']
      exact ⟨mannered_shares (h1 _ (P.others j hji)), id⟩
  | call _ j x k hx hr =>
    obtain ⟨m, prev, h1, h2, h3⟩ := hP.work j _ hr
    have hkeep : ∀ h, L.strange v h n.site.world → L.strange v h (host.exec x n.site.world).1 := fun h => L.keeps x
    have hstay : N.node p (host.exec x n.site.world).1 = some v := by
      refine N.keeps ?_ hP.at_
      by_cases hji : j = i
      · rw [if_pos hji] at h1; subst hji
        exact mannered_quiet h1 (hP.typed j).2 h2.1
      · rw [if_neg hji] at h1
        exact mannered_quiet h1 (hP.typed j).2 h2.1
    refine ⟨?_, ?_⟩
    · refine (hP.later hstay hkeep).set j _ (hP.typed j) (fun hji => (hP.held j hji).mono hkeep) fun q hq => ?_
      cases hq
      refine ⟨m, _, h1, h2.2 _, fun hji => ?_⟩
      rw [if_neg hji] at h1
      refine (h3 hji _).mono id (fun h hS => ?_) fun _ _ _ hS hh => hh.mono hS
      rcases hS with hS | ⟨ho, hS⟩
      · exact hkeep h hS
      · exact mannered_opens L h1 (hP.typed j).2 (P.apart j hji) hP.at_ h2.1 ho hS
    · by_cases hji : j = i
      · exact .inr ⟨_, by rw [hji]⟩
      · rw [if_neg hji] at h1
        exact .inl ⟨mannered_calm L h1 (hP.typed j).2 (hP.held j hji) hP.at_ h2.1, fun _ => hstay⟩
  | reply _ j o v' b hx hr =>
    refine ⟨?_, .inl (Leaves.refl _)⟩
    obtain ⟨m, prev, h1, h2, h3⟩ := hP.work j _ hr
    refine hP.set j _ ?_ (fun hji => h3 hji) fun q hq => by cases hq
    by_cases hji : j = i
    · rw [if_pos hji] at h1; subst hji
      exact mannered_typed h1 (hP.typed j).1 (hP.typed j).2 h2
    · rw [if_neg hji] at h1
      exact mannered_typed h1 (hP.typed j).1 (hP.typed j).2 h2
  | replyFails _ j o v' b x hx hr =>
    refine ⟨?_, .inl (Leaves.refl _)⟩
    obtain ⟨m, prev, h1, h2, h3⟩ := hP.work j _ hr
    refine hP.set j _ ?_ (fun hji => h3 hji) fun q hq => by cases hq
    by_cases hji : j = i
    · rw [if_pos hji] at h1; subst hji
      exact mannered_typed h1 (hP.typed j).1 (hP.typed j).2 h2
    · rw [if_neg hji] at h1
      exact mannered_typed h1 (hP.typed j).1 (hP.typed j).2 h2
  | panic _ j => exact ⟨⟨hP.at_, hP.typed, hP.held, hP.work⟩, .inl (Leaves.refl _)⟩
  | fatal _ => exact ⟨⟨hP.at_, hP.typed, hP.held, hP.work⟩, .inl (Leaves.refl _)⟩
  | other _ w2 =>
    have := ho w2 rfl
    exact ⟨hP.later (this.1.2 hP.at_) this.2, .inl this.1⟩

theorem peace_exec (hh : host.Short) (hu : user.length < 2 ^ 13) {w : ω} (hj : ∀ i, (jobs i).Proper) (P : Peace L i root p jobs) (hv : N.node p w = some v)
    {n : Shop ω H α} {ls : List (JobLabel ω H)}
    (he : QuietExec host user (LetBe L v p) (Shop.start root w jobs) ls n) (hl : ∀ l ∈ ls, l.Clean) :
    P.Inv v n.site ∧ GentleExec host user i (Leaves V N v p) (Shop.start root w jobs) ls n := by
  generalize hs : Shop.start root w jobs = n0 at he
  induction he with
  | refl =>
    subst hs
    exact ⟨⟨hv, fun j => ⟨rfl, nofun⟩, (fun j _ f x h _ hf => nomatch hf), (fun j q hq => nomatch hq)⟩, .refl _⟩
  | @step n1 n2 ls l h1 hst ho ih =>
    obtain ⟨hP, hg⟩ := ih (fun l h => hl l (List.mem_append_left _ h))
    have hx : JobExec host user (Shop.start root w jobs) ls n1 := hs ▸ h1.exec
    have hc : ∀ l ∈ ls, JobLabel.Clean l := fun l h => hl l (List.mem_append_left _ h)
    cases hst with
    | site _ l s' hne hst =>
      obtain ⟨h2, h3⟩ := peace_step hh hu hj hx hc hP hst fun w hw => ho w (by rw [hw])
      exact ⟨h2, hg.step (.site _ _ _ hne hst) (h3.imp id fun ⟨e, he⟩ => ⟨e, by rw [he]⟩)⟩
    | make _ j c m k s' g1 g2 hst g3 =>
      obtain ⟨h2, h3⟩ := peace_step hh hu hj hx hc hP hst fun w hw => by cases hw
      exact ⟨h2, hg.step (.make _ _ _ _ _ _ g1 g2 hst g3) (h3.imp id fun ⟨e, he⟩ => by cases he)⟩
    | get _ j c m k b spare g1 g2 g3 =>
      exact ⟨hP, hg.step (.get _ _ _ _ _ _ _ g1 g2 g3) (.inl (Leaves.refl _))⟩

end


/-! ### C102 -/

/-- **C102** The file `v` is at the path `p`, and the other clients are well-mannered: then whatever they do, client `i` is undisturbed,
and the file stays where it is. -/
theorem C102_undisturbed (L : Linkless V N) (hh : host.Short) (hu : user.length < 2 ^ 13) (root : GoString) (w : ω) (jobs : Nat → Job α)
    (hj : ∀ i, (jobs i).Proper) (i : Nat) (p : GoString) (v : ν) (hv : N.node p w = some v)
    (A : Nat → FID → GoString → Prop) (W : Nat → FID → Prop) (hW : ∀ j, j ≠ i → ∀ f q, W j f → A j f q → L.other p q)
    (ho : ∀ j, j ≠ i → (jobs j).All (Mannered root p (L.other p) (A j) (W j)))
    (hi : (jobs i).All (Mannered root p (fun _ => True) (A i) fun _ => True))
    (n : Shop ω H α) (ls : List (JobLabel ω H)) (he : QuietExec host user (LetBe L v p) (Shop.start root w jobs) ls n) (hl : ∀ l ∈ ls, l.Clean) :
    GentleExec host user i (Leaves V N v p) (Shop.start root w jobs) ls n ∧ N.node p n.site.world = some v := by
  obtain ⟨h1, h2⟩ := peace_exec hh hu hj ⟨A, W, hW, ho, hi⟩ hv he hl
  exact ⟨h2, h1.at_⟩

/-- messages that only look disturb nobody -/
theorem ReadOnly.mannered {root p : GoString} {other : GoString → Prop} {m : TMsg} (h : ReadOnly m) :
    Mannered root p other (fun _ _ => True) (fun _ => False) m := by
  cases m <;> first | trivial | exact h.elim | skip
  · exact ⟨fun _ _ => trivial, fun _ h => h⟩
  · exact .inl h

/-- the paths of the fids of `fetch` and `store` -/
def fidsOf (root : GoString) (path : List GoString) (f : FID) (q : GoString) : Prop := (f = 0 → q = placeOf root []) ∧ (f = 1 → q = placeOf root path)

theorem openAt_mannered {root p : GoString} {other : GoString → Prop} {W : FID → Prop} {path : List GoString} {mode : Mode} {good : QID → Bool} {k : Job Got}
    (hm : mode &&& OTRUNC = 0 ∨ other (placeOf root path)) (hw : path = [] → W 1 → W 0) (hk : k.All (Mannered root p other (fidsOf root path) W)) :
    (openAt path mode good k).All (Mannered root p other (fidsOf root path) W) := by
  refine Job.ok_all trivial fun _ => ?_
  refine Job.ok_all ⟨fun _ => rfl, fun h => absurd h (by decide)⟩ fun _ => ?_
  refine Job.ok_all ⟨fun q hq => ⟨fun h => absurd (show (1 : FID) = 0 from h) (by decide), fun _ => by rw [hq.1 rfl]; rfl⟩, hw⟩ fun r => ?_
  cases r <;> first | trivial | skip
  dsimp only
  split
  · refine Job.ok_all (hm.imp id fun h q hq => by rw [hq.2 rfl]; exact h) fun r => ?_
    cases r <;> first | trivial | skip
    dsimp only
    split
    · exact hk
    · trivial
  · trivial

theorem fetch_mannered {root p : GoString} {other : GoString → Prop} {W : FID → Prop} {path : List GoString} {c : Count} {n : Nat} (hw : path = [] → W 1 → W 0) :
    (fetch path c n).All (Mannered root p other (fidsOf root path) W) := by
  refine openAt_mannered (.inl (by decide)) hw ?_
  have : ∀ off acc, (readAll 1 c n off acc).All (Mannered root p other (fidsOf root path) W) := by
    induction n with
    | zero => exact fun _ _ => trivial
    | succ n ih =>
      intro off acc
      refine Job.ok_all trivial fun r => ?_
      cases r <;> first | trivial | skip
      dsimp only
      split
      · exact Job.ok_all trivial fun _ => trivial
      · exact ih _ _
  exact this _ _

theorem store_mannered {root p : GoString} {other : GoString → Prop} {W : FID → Prop} {path : List GoString} {bs : List Bytes}
    (ho : other (placeOf root path)) (hw : path = [] → W 1 → W 0) (h1 : W 1) : (store path bs).All (Mannered root p other (fidsOf root path) W) := by
  refine openAt_mannered (.inr ho) hw ?_
  have : ∀ off acc, (writeAll 1 bs off acc).All (Mannered root p other (fidsOf root path) W) := by
    induction bs with
    | nil => exact fun _ _ => Job.ok_all trivial fun _ => trivial
    | cons b bs ih =>
      intro off acc
      refine Job.ok_all h1 fun r => ?_
      cases r <;> first | trivial | skip
      dsimp only
      split
      · exact ih _ _
      · trivial
  exact this _ _

/-- a client reads a file or writes one -/
inductive Task
  | reads (path : List GoString) (c : Count) (n : Nat)
  | writes (path : List GoString) (bs : List Bytes)

def Task.path : Task → List GoString
  | .reads path _ _ => path
  | .writes path _ => path

def Task.Writes : Task → Prop
  | .reads _ _ _ => False
  | .writes _ _ => True

def Task.job : Task → Job Got
  | .reads path c n => fetch path c n
  | .writes path bs => store path bs

/-- the task can be sent -/
def Task.Proper : Task → Prop
  | .reads path c _ => GoodPath path ∧ 0 < c.toInt
  | .writes path bs => GoodPath path ∧ ∀ b ∈ bs, b.length < 2 ^ 31

theorem Task.Proper.job {t : Task} (h : t.Proper) : t.job.Proper := by
  cases t with
  | reads path c n => exact fetch_proper h.1 (Int.le_of_lt h.2) n
  | writes path bs => exact store_proper h.1 h.2

/-- the fids through which the task writes -/
def Task.fids (t : Task) (f : FID) : Prop := t.Writes ∧ (f = 1 ∨ (t.path = [] ∧ f = 0))

/-- what has become of the task, for a file with the contents `d` at the start and `d'` at the end -/
def Task.Done (d d' : Bytes) : Task → Got → Prop
  | .reads _ _ k, a => (∀ x, a = .whole x → x = d) ∧ (d.length < k → a ≠ .part) ∧ d' = d
  | .writes _ bs, a => (∀ x, a = .whole x → x = bs.flatten ∧ d' = bs.flatten) ∧ a ≠ .part

theorem task_mannered {root p : GoString} {other : GoString → Prop} (t : Task) (ho : t.Writes → other (placeOf root t.path)) :
    t.job.All (Mannered root p other (fidsOf root t.path) t.fids) := by
  cases t with
  | reads path c n => exact fetch_mannered fun h ⟨h1, _⟩ => h1.elim
  | writes path bs => exact store_mannered (ho trivial) (fun h _ => ⟨trivial, .inr ⟨h, rfl⟩⟩) ⟨trivial, .inl rfl⟩

theorem tasks_gentle (L : Linkless V N) (hh : host.Short) (hu : user.length < 2 ^ 13) (root : GoString) (w : ω) (tasks : Nat → Task)
    (hj : ∀ i, (tasks i).Proper) (i : Nat) (v : ν) (hv : N.node (placeOf root (tasks i).path) w = some v)
    (ho : ∀ j, j ≠ i → (tasks j).Writes → L.other (placeOf root (tasks i).path) (placeOf root (tasks j).path))
    (n : Shop ω H Got) (ls : List (JobLabel ω H))
    (he : QuietExec host user (LetBe L v (placeOf root (tasks i).path)) (Shop.start root w fun j => (tasks j).job) ls n) (hl : ∀ l ∈ ls, l.Clean) :
    GentleExec host user i (Leaves V N v (placeOf root (tasks i).path)) (Shop.start root w fun j => (tasks j).job) ls n := by
  refine (C102_undisturbed L hh hu root w _ (fun j => (hj j).job) i _ v hv (fun j => fidsOf root (tasks j).path) (fun j => (tasks j).fids) ?_ ?_ ?_ n ls he hl).1
  · rintro j hji f q ⟨h1, h2⟩ ⟨h3, h4⟩
    rcases h2 with h2 | ⟨h2, h5⟩
    · rw [h4 h2]; exact ho j hji h1
    · rw [h3 h5, ← h2]; exact ho j hji h1
  · exact fun j hji => task_mannered _ (ho j hji)
  · cases hi : tasks i with
    | reads path c n => exact fetch_mannered fun _ h => h
    | writes path bs => exact store_mannered trivial (fun _ h => h) trivial

/-- **C102** Any number of clients read and write files at the same time.  If no other client writes the file of client `i`, then
whatever the order in which things happen client `i` gets what the file has contained from the beginning, or puts into it what it was
to put: it is as if the others were not there. -/
theorem C102_tasks (L : Linkless V N) (hO : Opens V N) (hh : host.Short) (hu : user.length < 2 ^ 13) (root : GoString) (w : ω) (tasks : Nat → Task)
    (hj : ∀ i, (tasks i).Proper) (i : Nat) (v : ν) (hv : N.node (placeOf root (tasks i).path) w = some v)
    (ho : ∀ j, j ≠ i → (tasks j).Writes → L.other (placeOf root (tasks i).path) (placeOf root (tasks j).path))
    (n : Shop ω H Got) (ls : List (JobLabel ω H))
    (he : QuietExec host user (LetBe L v (placeOf root (tasks i).path)) (Shop.start root w fun j => (tasks j).job) ls n) (hl : ∀ l ∈ ls, l.Clean)
    (a : Got) (ha : n.stage i = .next (.ret a)) :
    (tasks i).Done (V.content v w) (V.content v n.site.world) a ∧ N.node (placeOf root (tasks i).path) n.site.world = some v := by
  have hg := tasks_gentle L hh hu root w tasks hj i v hv ho n ls he hl
  cases hi : tasks i with
  | reads path c k =>
    rw [hi] at hg hv
    have hc : 0 < c.toInt := by have := hj i; rw [hi] at this; exact this.2
    obtain ⟨h1, h2, h3, h4⟩ := C99_fetch hO hh hu root w _ (fun j => (hj j).job) _ n [] ls (.refl _) i path c hc k (by rw [hi]; rfl) (fun _ => rfl) v hv hg hl a ha
    exact ⟨⟨h1, h2, h4⟩, h3⟩
  | writes path bs =>
    rw [hi] at hg hv
    have hb : ∀ b ∈ bs, b.length < 2 ^ 31 := by have := hj i; rw [hi] at this; exact this.2
    obtain ⟨h1, h2, h3⟩ := C99_store hO hh hu root w _ (fun j => (hj j).job) _ n [] ls (.refl _) i path bs hb (by rw [hi]; rfl) (fun _ => rfl) v hv hg hl a ha
    exact ⟨⟨h1, h2⟩, h3⟩

/-- **C102** Client `i` reads a file while the others run programs that are well-mannered. -/
theorem C102_fetch (L : Linkless V N) (hO : Opens V N) (hh : host.Short) (hu : user.length < 2 ^ 13) (root : GoString) (w : ω) (jobs : Nat → Job Got)
    (hj : ∀ i, (jobs i).Proper) (i : Nat) (path : List GoString) (c : Count) (hc : 0 < c.toInt) (k : Nat) (hi : jobs i = fetch path c k)
    (v : ν) (hv : N.node (placeOf root path) w = some v)
    (A : Nat → FID → GoString → Prop) (W : Nat → FID → Prop) (hW : ∀ j, j ≠ i → ∀ f q, W j f → A j f q → L.other (placeOf root path) q)
    (ho : ∀ j, j ≠ i → (jobs j).All (Mannered root (placeOf root path) (L.other (placeOf root path)) (A j) (W j)))
    (n : Shop ω H Got) (ls : List (JobLabel ω H)) (he : QuietExec host user (LetBe L v (placeOf root path)) (Shop.start root w jobs) ls n)
    (hl : ∀ l ∈ ls, l.Clean) (a : Got) (ha : n.stage i = .next (.ret a)) :
    (∀ d, a = .whole d → d = V.content v w) ∧ ((V.content v w).length < k → a ≠ .part) ∧ V.content v n.site.world = V.content v w := by
  have hg := (C102_undisturbed L hh hu root w jobs hj i _ v hv (fun j => if j = i then fidsOf root path else A j) W
    (fun j hji => by rw [if_neg hji]; exact hW j hji) (fun j hji => by rw [if_neg hji]; exact ho j hji)
    (by rw [if_pos rfl, hi]; exact fetch_mannered fun _ h => h) n ls he hl).1
  obtain ⟨h1, h2, -, h3⟩ := C99_fetch hO hh hu root w jobs hj _ n [] ls (.refl _) i path c hc k hi (fun _ => rfl) v hv hg hl a ha
  exact ⟨h1, h2, h3⟩

/-- **C102** Client `i` writes a file while the others run programs that are well-mannered. -/
theorem C102_store (L : Linkless V N) (hO : Opens V N) (hh : host.Short) (hu : user.length < 2 ^ 13) (root : GoString) (w : ω) (jobs : Nat → Job Got)
    (hj : ∀ i, (jobs i).Proper) (i : Nat) (path : List GoString) (bs : List Bytes) (hb : ∀ b ∈ bs, b.length < 2 ^ 31) (hi : jobs i = store path bs)
    (v : ν) (hv : N.node (placeOf root path) w = some v)
    (A : Nat → FID → GoString → Prop) (W : Nat → FID → Prop) (hW : ∀ j, j ≠ i → ∀ f q, W j f → A j f q → L.other (placeOf root path) q)
    (ho : ∀ j, j ≠ i → (jobs j).All (Mannered root (placeOf root path) (L.other (placeOf root path)) (A j) (W j)))
    (n : Shop ω H Got) (ls : List (JobLabel ω H)) (he : QuietExec host user (LetBe L v (placeOf root path)) (Shop.start root w jobs) ls n)
    (hl : ∀ l ∈ ls, l.Clean) (a : Got) (ha : n.stage i = .next (.ret a)) :
    (∀ d, a = .whole d → d = bs.flatten ∧ V.content v n.site.world = bs.flatten) ∧ a ≠ .part := by
  have hg := (C102_undisturbed L hh hu root w jobs hj i _ v hv (fun j => if j = i then fidsOf root path else A j) W
    (fun j hji => by rw [if_neg hji]; exact hW j hji) (fun j hji => by rw [if_neg hji]; exact ho j hji)
    (by rw [if_pos rfl, hi]; exact store_mannered trivial (fun _ h => h) trivial) n ls he hl).1
  obtain ⟨h1, h2, -⟩ := C99_store hO hh hu root w jobs hj _ n [] ls (.refl _) i path bs hb hi (fun _ => rfl) v hv hg hl a ha
  exact ⟨h1, h2⟩

end

/-! ### an example -/

section
open Mem

/-- the path `r` is the only name of `v` -/
def Sole (v : Nat) (r : GoString) (w : World) : Prop := ∀ x ∈ w.names, x.2 = v → x.1 = r

instance (v : Nat) (r : GoString) (w : World) : Decidable (Sole v r w) := by unfold Sole; infer_instance

/-- what is at a path, if it has no other name -/
def soleAt (r : GoString) (w : World) : Option Nat := (find r w).filter fun v => v < w.next ∧ Sole v r w

theorem soleAt_some {r : GoString} {w : World} {v : Nat} : soleAt r w = some v ↔ find r w = some v ∧ v < w.next ∧ Sole v r w := by
  unfold soleAt; rw [Option.filter_eq_some_iff]; simp

theorem find_mem {r : GoString} {w : World} {v : Nat} (h : find r w = some v) : (r, v) ∈ w.names := by
  unfold find at h
  generalize w.names = l at h
  induction l with
  | nil => cases h
  | cons x l ih =>
    obtain ⟨a, b⟩ := x
    by_cases hb : r = a
    · subst hb; simp [List.lookup] at h; simp [h]
    · have : (r == a) = false := by simpa using hb
      simp only [List.lookup, this] at h
      exact List.mem_cons_of_mem _ (ih h)

theorem sole_keeps {c : HCall Nat} {r : GoString} {w : World} {v : Nat} (hd : ¬ Disturbs c r) (hn : v < w.next) (hs : Sole v r w) :
    Sole v r (Mem.host.exec c w).1 := by
  have same : ∀ w' : World, w'.names = w.names → Sole v r w' := by
    intro w' h; unfold Sole; rw [h]; exact hs
  have add : ∀ p nd, Sole v r (addNode p nd w) := by
    intro p nd x hx he
    rcases List.mem_append.1 hx with hx | hx
    · exact hs x hx he
    · cases List.mem_singleton.1 hx; exact absurd he (by dsimp only; omega)
  cases c with
  | lstat p => exact hs
  | stat p => exact hs
  | openFile p f m =>
    show Sole v r (Mem.openFile p f m w).1
    unfold Mem.openFile
    split
    · split
      · exact hs
      · refine same _ ?_
        show (if f / 512 % 2 = 1 then _ else w : World).names = _
        split <;> rfl
    · split
      · exact add p { perm := m }
      · exact hs
  | mkdir p m =>
    show Sole v r (Mem.mkdir p m w).1
    unfold Mem.mkdir
    split
    · exact hs
    · exact add _ _
  | chmod p m => exact same _ (onNode_names _ _ _)
  | rename p q =>
    have hd : Apart r p ∧ Apart r q := Classical.not_not.1 hd
    show Sole v r (Mem.rename p q w).1
    unfold Mem.rename
    split
    · exact hs
    · rename_i i hi
      intro x hx he
      rcases List.mem_append.1 hx with hx | hx
      · exact hs x (List.mem_filter.1 hx).1 he
      · cases List.mem_singleton.1 hx
        dsimp only at he
        subst he
        exact absurd (hs _ (find_mem hi) rfl).symm hd.1.1
  | truncate p n =>
    show Sole v r (if n.toInt < 0 then _ else _ : World × Option GoString).1
    split
    · exact hs
    · exact same _ (onNode_names _ _ _)
  | chtimes p a m => exact same _ (onNode_names _ _ _)
  | remove p =>
    show Sole v r (Mem.remove p w).1
    unfold Mem.remove
    split
    · exact hs
    · exact fun x hx he => hs x (List.mem_filter.1 hx).1 he
  | close h => exact same _ (onHandle_names _ _ _ _ fun _ => rfl)
  | sync h => exact same _ (onHandle_names _ _ _ _ fun _ => rfl)
  | seek0 h => exact same _ (onHandle_names _ _ _ _ fun _ => rfl)
  | readdir1 h => exact same _ (onHandle_names _ _ _ _ fun o => by cases o.rest <;> rfl)
  | readAt h n off => exact same _ (onHandle_names _ _ _ _ fun o => by dsimp only; split <;> rfl)
  | writeAt h b off => exact same _ (onHandle_names _ _ _ _ fun o => by split <;> rfl)

def soleNames : NameView shortHost Nat where
  node := soleAt
  keeps := by
    intro c r w v hd hv
    obtain ⟨h1, h2, h3⟩ := soleAt_some.1 hv
    rw [short_world]
    exact soleAt_some.2 ⟨memNames.keeps hd h1, Nat.lt_of_lt_of_le h2 (mem_next c w), sole_keeps hd h2 h3⟩
  rename_ok := by
    intro p q w w' v h hv
    obtain ⟨h1, h2, h3⟩ := soleAt_some.1 hv
    have h4 := memNames.rename_ok h h1
    have h : Mem.rename p q w = (w', none) := h
    unfold Mem.rename at h
    rw [h1] at h
    cases h
    refine soleAt_some.2 ⟨h4, h2, fun x hx he => ?_⟩
    rcases List.mem_append.1 hx with hx | hx
    · have := h3 x (List.mem_filter.1 hx).1 he
      have h5 := (List.mem_filter.1 hx).2
      simp [this] at h5
    · cases List.mem_singleton.1 hx; rfl
  rename_fails := by
    intro p q w w' e r v h hv
    have h : Mem.rename p q w = (w', some e) := h
    unfold Mem.rename at h
    split at h <;> cases h
    exact hv

/-- open files stay what they are -/
theorem mem_inos (c : HCall Nat) (w : World) {h : Nat} {o : Opened} (ho : w.opened[h]? = some o) :
    ∃ o', (Mem.host.exec c w).1.opened[h]? = some o' ∧ o'.ino = o.ino := by
  have same : ∀ w' : World, w'.opened = w.opened → ∃ o', w'.opened[h]? = some o' ∧ o'.ino = o.ino := fun w' e => ⟨o, by rw [e]; exact ho, rfl⟩
  have add : ∀ p i (w' : World), w'.opened = w.opened → ∃ o', (addHandle p i w').1.opened[h]? = some o' ∧ o'.ino = o.ino := by
    intro p i w' e
    refine ⟨o, ?_, rfl⟩
    show (w'.opened ++ _)[h]? = _
    rw [e, List.getElem?_append_left (List.getElem?_eq_some_iff.1 ho).1]
    exact ho
  have node : ∀ p f, ∃ o', (onNode p f w).1.opened[h]? = some o' ∧ o'.ino = o.ino := by
    intro p f; unfold onNode; split <;> exact same _ rfl
  have hand : ∀ {α : Type} (x : Nat) (bad : α) (f : Opened → World × α),
      (∀ o1, w.opened[x]? = some o1 → ∃ o', (f o1).1.opened[h]? = some o' ∧ o'.ino = o.ino) →
      ∃ o', (onHandle x w bad f).1.opened[h]? = some o' ∧ o'.ino = o.ino := by
    intro α x bad f hf
    unfold onHandle
    split
    · rename_i o1 h1
      split
      · exact hf o1 h1
      · exact same _ rfl
    · exact same _ rfl
  have set : ∀ x (o1 o2 : Opened), w.opened[x]? = some o1 → o2.ino = o1.ino → ∃ o', (setOpened x o2 w).opened[h]? = some o' ∧ o'.ino = o.ino := by
    intro x o1 o2 h1 h2
    unfold setOpened
    dsimp only
    rw [List.getElem?_set]
    by_cases hx : x = h
    · subst hx
      rw [if_pos rfl, if_pos (List.getElem?_eq_some_iff.1 ho).1]
      rw [ho] at h1; cases h1
      exact ⟨_, rfl, h2⟩
    · rw [if_neg hx]; exact ⟨o, ho, rfl⟩
  cases c with
  | lstat p => exact same _ rfl
  | stat p => exact same _ rfl
  | openFile p f m =>
    show ∃ o', (Mem.openFile p f m w).1.opened[h]? = some o' ∧ o'.ino = o.ino
    unfold Mem.openFile
    split
    · split
      · exact same _ rfl
      · exact add _ _ _ (by split <;> rfl)
    · split
      · exact add _ _ _ rfl
      · exact same _ rfl
  | mkdir p m =>
    show ∃ o', (Mem.mkdir p m w).1.opened[h]? = some o' ∧ o'.ino = o.ino
    unfold Mem.mkdir
    split <;> exact same _ rfl
  | chmod p m => exact node _ _
  | rename p q =>
    show ∃ o', (Mem.rename p q w).1.opened[h]? = some o' ∧ o'.ino = o.ino
    unfold Mem.rename
    split <;> exact same _ rfl
  | truncate p n =>
    show ∃ o', (if n.toInt < 0 then _ else _ : World × Option GoString).1.opened[h]? = some o' ∧ o'.ino = o.ino
    split
    · exact same _ rfl
    · exact node _ _
  | chtimes p a m => exact node _ _
  | remove p =>
    show ∃ o', (Mem.remove p w).1.opened[h]? = some o' ∧ o'.ino = o.ino
    unfold Mem.remove
    split <;> exact same _ rfl
  | close x => exact hand x _ _ fun o1 h1 => set _ _ _ h1 rfl
  | sync x => exact hand x _ _ fun o1 h1 => same _ rfl
  | seek0 x => exact hand x _ _ fun o1 h1 => set _ _ _ h1 rfl
  | readdir1 x =>
    refine hand x _ _ fun o1 h1 => ?_
    cases o1.rest with
    | nil => exact same _ rfl
    | cons => exact set _ _ _ h1 rfl
  | readAt x n off => exact hand x _ _ fun o1 h1 => by dsimp only; split <;> exact same _ rfl
  | writeAt x b off => exact hand x _ _ fun o1 h1 => by split <;> exact same _ rfl

theorem mem_nodes (c : HCall Nat) (w : World) {h u : Nat} (hu : memNode h w = some u) : memNode h (Mem.host.exec c w).1 = some u := by
  obtain ⟨o, h1, h2, h3⟩ := memNode_some.1 hu
  obtain ⟨o', h4, h5⟩ := mem_inos c w h1
  exact memNode_some.2 ⟨o', h4, h5.trans h2, Nat.lt_of_lt_of_le h3 (mem_next c w)⟩

def shortLinkless : Linkless shortFiles soleNames where
  other p q := q ≠ p
  strange v h w := ∃ o, w.opened[h]? = some o ∧ o.ino ≠ v
  node := by
    rintro v h w ⟨o, h1, h2⟩ h3
    obtain ⟨o', h4, h5, -⟩ := memNode_some.1 (show memNode h w = some v from h3)
    rw [h1] at h4; cases h4
    exact h2 h5
  keeps := by
    rintro v h w c ⟨o, h1, h2⟩
    rw [short_world]
    obtain ⟨o', h3, h4⟩ := mem_inos c w h1
    exact ⟨o', h3, by rw [h4]; exact h2⟩
  opened := by
    intro p q fl m w w' h v hv hq ho
    obtain ⟨h1, h2, h3⟩ := soleAt_some.1 (show soleAt p w = some v from hv)
    have ho : Mem.openFile q fl m w = (w', .ok h) := ho
    unfold Mem.openFile at ho
    split at ho
    · rename_i i hi
      split at ho
      · cases ho
      · by_cases ht : fl / 512 % 2 = 1
        · rw [if_pos ht] at ho
          cases ho
          exact ⟨_, List.getElem?_concat_length, fun e => hq (h3 _ (find_mem hi) e)⟩
        · rw [if_neg ht] at ho
          cases ho
          exact ⟨_, List.getElem?_concat_length, fun e => hq (h3 _ (find_mem hi) e)⟩
    · split at ho
      · cases ho
        exact ⟨_, List.getElem?_concat_length, fun e => by dsimp only at e; omega⟩
      · cases ho
  open_at := by
    intro p q fl m w v hv hq
    obtain ⟨h1, h2, h3⟩ := soleAt_some.1 (show soleAt p w = some v from hv)
    refine ⟨fun h u hu => mem_nodes (.openFile q fl m) w hu, ?_⟩
    show memContent v (Mem.openFile q fl m w).1 = memContent v w
    unfold Mem.openFile
    split
    · rename_i i hi
      have hne : v ≠ i := fun e => hq (h3 _ (find_mem hi) e.symm)
      split
      · rfl
      · by_cases ht : fl / 512 % 2 = 1
        · rw [if_pos ht]
          simp [memContent, addHandle, setNode, hne]
        · rw [if_neg ht]; rfl
    · split
      · have hne : v ≠ w.next := by omega
        have hlt : v < w.next + 1 := by omega
        simp [memContent, addHandle, addNode, hne, h2, hlt]
      · rfl
  truncate_at := by
    intro p q s w v hv hq
    obtain ⟨h1, h2, h3⟩ := soleAt_some.1 (show soleAt p w = some v from hv)
    refine ⟨fun h u hu => mem_nodes (.truncate q s) w hu, ?_⟩
    show memContent v (if s.toInt < 0 then _ else _ : World × Option GoString).1 = memContent v w
    split
    · rfl
    · unfold onNode
      split
      · rfl
      · rename_i i hi
        have hne : v ≠ i := fun e => hq (h3 _ (find_mem hi) e.symm)
        simp [memContent, setNode, hne]

theorem sole_opens : Opens shortFiles soleNames where
  opened hv ho := by
    obtain ⟨h1, h2, -⟩ := soleAt_some.1 (show soleAt _ _ = some _ from hv)
    exact short_opens.opened (memAt_some.2 ⟨h1, h2⟩) ho
  emptied ht hv ho := by
    obtain ⟨h1, h2, -⟩ := soleAt_some.1 (show soleAt _ _ = some _ from hv)
    exact short_opens.emptied ht (memAt_some.2 ⟨h1, h2⟩) ho

/-- `world0` with another file, "/x/g" -/
def world1 : World where
  names := world0.names ++ [([47, 120, 47, 103], 5)]
  nodes := fun i => if i = 5 then { data := [5, 6] } else world0.nodes i
  next := 6
  opened := []

/-- Client 0 writes "f"; all others read "g". -/
def demoTasks : Nat → Task
  | 0 => .writes [lit "f"] [[7, 8], [9]]
  | _ + 1 => .reads [lit "g"] 2 10

theorem demoTasks_proper (i : Nat) : (demoTasks i).Proper := by
  match i with
  | 0 => exact ⟨by unfold GoodPath; decide, by decide⟩
  | _ + 1 => exact ⟨by unfold GoodPath; decide, by decide⟩

theorem quiet_own {host : Host ω H} {user : GoString} {R : ω → ω → Prop} {n n' : Shop ω H α} {ls : List (JobLabel ω H)} (he : JobExec host user n ls n')
    (hl : ∀ l ∈ ls, ∃ i, l.Own i) : QuietExec host user R n ls n' := by
  induction he with
  | refl => exact .refl _
  | @step n1 n2 ls l h1 hs ih =>
    refine (ih fun l h => hl l (List.mem_append_left _ h)).step hs fun w hw => ?_
    subst hw
    obtain ⟨i, hi⟩ := hl _ (List.mem_append_right _ (List.mem_singleton.2 rfl))
    exact hi.elim

/-- C102: the hypotheses are met by two clients that work at the same time, for both of them -/
example : ∃ (n : Shop World Nat Got) (ls : List (JobLabel World Nat)) (a b : Got),
    soleNames.node (placeOf [47, 120] (demoTasks 0).path) world1 = some 3 ∧ soleNames.node (placeOf [47, 120] (demoTasks 1).path) world1 = some 5 ∧
    (∀ j, j ≠ 0 → (demoTasks j).Writes → shortLinkless.other (placeOf [47, 120] (demoTasks 0).path) (placeOf [47, 120] (demoTasks j).path)) ∧
    (∀ j, j ≠ 1 → (demoTasks j).Writes → shortLinkless.other (placeOf [47, 120] (demoTasks 1).path) (placeOf [47, 120] (demoTasks j).path)) ∧
    QuietExec shortHost (lit "harvey") (LetBe shortLinkless 3 (placeOf [47, 120] (demoTasks 0).path)) (Shop.start [47, 120] world1 fun j => (demoTasks j).job) ls n ∧
    QuietExec shortHost (lit "harvey") (LetBe shortLinkless 5 (placeOf [47, 120] (demoTasks 1).path)) (Shop.start [47, 120] world1 fun j => (demoTasks j).job) ls n ∧
    (∀ l ∈ ls, l.Clean) ∧ n.stage 0 = .next (.ret a) ∧ n.stage 1 = .next (.ret b) := by
  have hu : (lit "harvey").length < 2 ^ 13 := by decide
  have hp : ∀ j, (demoTasks j).job.Proper := fun j => (demoTasks_proper j).job
  obtain ⟨ls1, n1, a, a1, a2, a3⟩ := C98_completes shortHost_short hu [47, 120] world1 _ hp _ [] (.refl _) nofun 0 nofun rfl
    (show (0 : Nat) < 65534 by decide)
  obtain ⟨-, b1, b2⟩ := own_exec (R := fun _ _ => True) (fun _ => trivial) a1 a2
  have b3 := b1 1 (by decide)
  have c1 : ∀ l ∈ ls1, l.Clean := fun l hl => (a2 l hl).fine.1
  obtain ⟨ls2, n2, b, d1, d2, d3⟩ := C98_completes shortHost_short hu [47, 120] world1 _ hp _ ls1 a1 c1 1
    (fun l hl => own_other (by decide) (a2 l hl)) b2 (by rw [b3.1]; exact (show (0 : Nat) < 65534 by decide))
  obtain ⟨-, e1, -⟩ := own_exec (R := fun _ _ => True) (fun _ => trivial) d1 d2
  have own : ∀ l ∈ ls1 ++ ls2, ∃ i, JobLabel.Own i l := by
    intro l hl
    rcases List.mem_append.1 hl with h | h
    · exact ⟨0, a2 l h⟩
    · exact ⟨1, d2 l h⟩
  refine ⟨n2, ls1 ++ ls2, a, b, by decide +kernel, by decide +kernel, fun j hj hw => ?_, fun j hj hw => ?_, quiet_own (a1.trans d1) own, quiet_own (a1.trans d1) own, fun l hl => ?_, ?_, d3⟩
  · match j, hj with
    | j + 1, _ => exact hw.elim
  · match j, hj with
    | 0, _ => show _ ≠ _; decide +kernel
    | j + 2, _ => exact hw.elim
  · rcases List.mem_append.1 hl with h | h
    · exact c1 l h
    · exact (d2 l h).fine.1
  · rw [(e1 0 (by decide)).2]; exact a3

/-- C102: for `C102_fetch` and client 1, the programs of the others are well-mannered -/
example : (demoTasks 1).job = fetch [lit "g"] 2 10 ∧
    (∀ j, j ≠ 1 → ∀ f q, (demoTasks j).fids f → fidsOf [47, 120] (demoTasks j).path f q → shortLinkless.other (placeOf [47, 120] [lit "g"]) q) ∧
    ∀ j, j ≠ 1 → (demoTasks j).job.All (Mannered [47, 120] (placeOf [47, 120] [lit "g"]) (shortLinkless.other (placeOf [47, 120] [lit "g"]))
      (fidsOf [47, 120] (demoTasks j).path) (demoTasks j).fids) := by
  have key : ∀ j, j ≠ 1 → (demoTasks j).Writes → shortLinkless.other (placeOf [47, 120] [lit "g"]) (placeOf [47, 120] (demoTasks j).path) := by
    intro j hj hw
    match j, hj with
    | 0, _ => show _ ≠ _; decide +kernel
    | j + 2, _ => exact hw.elim
  refine ⟨rfl, ?_, fun j hj => task_mannered _ (key j hj)⟩
  rintro j hj f q ⟨h1, h2⟩ ⟨h3, h4⟩
  rcases h2 with h2 | ⟨h2, h5⟩
  · rw [h4 h2]; exact key j hj h1
  · rw [h3 h5, show placeOf [47, 120] [] = placeOf [47, 120] (demoTasks j).path by rw [h2]]; exact key j hj h1

end

end Ninep.Client
