import Verif.Props.Near
import Verif.Props.Own
import Verif.Props.Listing

set_option linter.unusedSimpArgs false
set_option linter.unusedVariables false

/-!
# Clients that work at the same time get everything (C104)
-/

namespace Ninep.Client
open Spec Ufs
variable {ω H α : Type}

/-! ### the open files of one client -/

/-- in these steps client `i` has opened a file, and `h` is what it got -/
def Gained (i : Nat) (ls : List (JobLabel ω H)) (h : H) : Prop := ∃ e, BLabel.call i e ∈ ls.flatMap JobLabel.outside ∧ e.gives = some h

/-- the host, with a set of open files to which those are added that calls return -/
def tagged (host : Host ω H) : Host (ω × (H → Prop)) H where
  lstat p x := (((host.lstat p x.1).1, x.2), (host.lstat p x.1).2)
  stat p x := (((host.stat p x.1).1, x.2), (host.stat p x.1).2)
  openFile p f m x := (((host.openFile p f m x.1).1, fun h => x.2 h ∨ (host.openFile p f m x.1).2 = .ok h), (host.openFile p f m x.1).2)
  mkdir p m x := (((host.mkdir p m x.1).1, x.2), (host.mkdir p m x.1).2)
  chmod p m x := (((host.chmod p m x.1).1, x.2), (host.chmod p m x.1).2)
  rename p q x := (((host.rename p q x.1).1, x.2), (host.rename p q x.1).2)
  truncate p n x := (((host.truncate p n x.1).1, x.2), (host.truncate p n x.1).2)
  chtimes p a m x := (((host.chtimes p a m x.1).1, x.2), (host.chtimes p a m x.1).2)
  remove p x := (((host.remove p x.1).1, x.2), (host.remove p x.1).2)
  close h x := (((host.close h x.1).1, x.2), (host.close h x.1).2)
  sync h x := (((host.sync h x.1).1, x.2), (host.sync h x.1).2)
  seek0 h x := (((host.seek0 h x.1).1, x.2), (host.seek0 h x.1).2)
  readdir1 h x := (((host.readdir1 h x.1).1, x.2), (host.readdir1 h x.1).2)
  readAt h n o x := (((host.readAt h n o x.1).1, x.2), (host.readAt h n o x.1).2)
  writeAt h b o x := (((host.writeAt h b o x.1).1, x.2), (host.writeAt h b o x.1).2)

theorem tagged_exec (host : Host ω H) (c : HCall H) (x : ω × (H → Prop)) :
    (tagged host).exec c x = (((host.exec c x.1).1, fun h => x.2 h ∨ Ev.gives ⟨c, (host.exec c x.1).2⟩ = some h), (host.exec c x.1).2) := by
  have no : ∀ {P : H → Prop}, (fun h => P h ∨ (none : Option H) = some h) = P := by intro P; funext h; simp
  cases c <;> first | (simp only [Host.exec, tagged, Ev.gives, no]; done) | skip
  simp only [Host.exec, tagged]
  congr 2
  funext h
  refine congrArg (x.2 h ∨ ·) (propext ?_)
  cases hr : (host.openFile _ _ _ x.1).2 with
  | ok y => simp [Ev.gives]
  | error e => simp [Ev.gives]

section
variable {ν : Type} {host : Host ω H} {user : GoString}

def taggedFiles (V : FileView host ν) : FileView (tagged host) ν where
  node h x := V.node h x.1
  content v x := V.content v x.1
  read_at := by
    intro h n off w w' d e v hn hx
    have h1 : (host.readAt h n off w.1).2 = (d, e) := (Prod.mk.inj hx).2
    exact V.read_at hn (by rw [← h1])
  read_calm h n off w := V.read_calm h n off w.1
  write_at := by
    intro h b off w w' n v hn hx
    have h1 : (host.writeAt h b off w.1).2 = (n, none) := (Prod.mk.inj hx).2
    have h2 := (Prod.mk.inj hx).1
    rw [← h2]
    exact V.write_at hn (by rw [← h1])
  write_calm h b off w := V.write_calm h b off w.1
  close_calm h w := V.close_calm h w.1
  sync_calm h w := V.sync_calm h w.1
  seek_calm h w := V.seek_calm h w.1
  readdir_calm h w := V.readdir_calm h w.1
  lstat_calm p w := V.lstat_calm p w.1
  stat_calm p w := V.stat_calm p w.1
  open_calm p fl perm w := V.open_calm p fl perm w.1
  mkdir_calm p m w := V.mkdir_calm p m w.1
  chmod_calm p m w := V.chmod_calm p m w.1
  rename_calm p q w := V.rename_calm p q w.1
  chtimes_calm p a m w := V.chtimes_calm p a m w.1
  remove_calm p w := V.remove_calm p w.1

def taggedNames (N : NameView host ν) : NameView (tagged host) ν where
  node p x := N.node p x.1
  keeps := by
    intro c r w v hd hv
    rw [tagged_exec]
    exact N.keeps hd hv
  rename_ok := by
    intro p q w w' v hx hv
    have h1 : (host.rename p q w.1).2 = none := (Prod.mk.inj hx).2
    rw [← (Prod.mk.inj hx).1]
    exact N.rename_ok (by rw [← h1]) hv
  rename_fails := by
    intro p q w w' e r v hx hv
    have h1 : (host.rename p q w.1).2 = some e := (Prod.mk.inj hx).2
    rw [← (Prod.mk.inj hx).1]
    exact N.rename_fails (by rw [← h1]) hv

variable {V : FileView host ν} {N : NameView host ν}

theorem Opens.tagged (hO : Opens V N) : Opens (taggedFiles V) (taggedNames N) where
  opened := by
    intro p fl m w w' h v hv hx
    have h1 : (host.openFile p fl m w.1).2 = .ok h := (Prod.mk.inj hx).2
    rw [← (Prod.mk.inj hx).1]
    exact hO.opened hv (by rw [← h1])
  emptied := by
    intro p fl m w w' h v hf hv hx
    have h1 : (host.openFile p fl m w.1).2 = .ok h := (Prod.mk.inj hx).2
    rw [← (Prod.mk.inj hx).1]
    exact hO.emptied hf hv (by rw [← h1])

theorem CanReach.tagged {root : GoString} {path : List GoString} {mode : Mode} {good : QID → Bool} {J : ω → Prop} {M : H → ω → Prop}
    (h : CanReach host root path mode good J M) :
    CanReach (Client.tagged host) root path mode good (fun x => J x.1) (fun y x => M y x.1 ∧ x.2 y) where
  attach w w' r hj hx := by
    rw [← (Prod.mk.inj hx).1, ← (Prod.mk.inj hx).2]
    exact h.attach w.1 _ _ hj rfl
  walk ms w w' r h1 h2 hj hx := by
    rw [← (Prod.mk.inj hx).1, ← (Prod.mk.inj hx).2]
    exact h.walk ms w.1 _ _ h1 h2 hj rfl
  opens w w' r hj hx := by
    rw [← (Prod.mk.inj hx).1, ← (Prod.mk.inj hx).2]
    obtain ⟨h1, y, h2, h3⟩ := h.opens w.1 _ _ hj rfl
    exact ⟨h1, y, h2, h3, .inr h2⟩

theorem CanRead.tagged {root : GoString} {path : List GoString} {v : ν} {J : ω → Prop} {M : H → ω → Prop}
    (h : CanRead V root path v J M) : CanRead (taggedFiles V) root path v (fun x => J x.1) (fun y x => M y x.1 ∧ x.2 y) where
  reach := h.reach.tagged
  reads y n off w w' x e hj hm hn hx := by
    have h2 := Prod.mk.inj hx
    obtain ⟨h3, h4, h5⟩ := h.reads y n off w.1 _ _ _ hj hm.1 hn rfl
    rw [← h2.1]
    refine ⟨h3, ⟨h4, hm.2⟩, fun ho z hz => h5 ho z ?_⟩
    rw [← hz]
    exact congrArg Prod.snd h2.2

theorem CanWrite.tagged {root : GoString} {path : List GoString} {v : ν} {J : ω → Prop} {M : H → ω → Prop}
    (h : CanWrite V root path v J M) : CanWrite (taggedFiles V) root path v (fun x => J x.1) (fun y x => M y x.1 ∧ x.2 y) where
  reach := h.reach.tagged
  writes y b off w w' k e hj hm hn hx := by
    have h2 := Prod.mk.inj hx
    obtain ⟨h3, h4, h5⟩ := h.writes y b off w.1 _ _ _ hj hm.1 hn rfl
    rw [← h2.1]
    refine ⟨h3, ⟨h4, hm.2⟩, fun ho => ?_⟩
    rw [← h5 ho]
    exact (congrArg Prod.snd h2.2).symm

theorem QuietExec.mono {R R' : ω → ω → Prop} (hR : ∀ a b, R a b → R' a b) {n n' : Shop ω H α} {ls : List (JobLabel ω H)}
    (h : QuietExec host user R n ls n') : QuietExec host user R' n ls n' := by
  induction h with
  | refl => exact .refl _
  | step _ hs ho ih => exact ih.step hs fun w hw => hR _ _ (ho w hw)

/-! ### executions, seen from one client -/

/-- What is not done for client `i` is in `R`, which may depend on the files that client `i` has opened. -/
inductive TendedExec (host : Host ω H) (user : GoString) (i : Nat) (R : (H → Prop) → ω → ω → Prop) :
    Shop ω H α → List (JobLabel ω H) → Shop ω H α → Prop
  | refl (n : Shop ω H α) : TendedExec host user i R n [] n
  | step {n n' n'' : Shop ω H α} {ls : List (JobLabel ω H)} {l : JobLabel ω H} : TendedExec host user i R n ls n' → JobStep host user l n' n'' →
      (R (Gained i ls) n'.site.world n''.site.world ∨ ∃ e, l = .site (.call i e)) → TendedExec host user i R n (ls ++ [l]) n''

theorem TendedExec.exec {i : Nat} {R : (H → Prop) → ω → ω → Prop} {n n' : Shop ω H α} {ls : List (JobLabel ω H)}
    (h : TendedExec host user i R n ls n') : JobExec host user n ls n' := by
  induction h with
  | refl => exact .refl _
  | step _ hs _ ih => exact ih.step hs

theorem gained_call (i : Nat) (ls : List (JobLabel ω H)) (e : Ev H) :
    Gained i (ls ++ [.site (.call i e)]) = fun h => Gained i ls h ∨ e.gives = some h := by
  funext h
  refine propext ⟨?_, ?_⟩
  · rintro ⟨e', h1, h2⟩
    rw [List.flatMap_append] at h1
    rcases List.mem_append.1 h1 with h1 | h1
    · exact .inl ⟨e', h1, h2⟩
    · simp [JobLabel.outside, JobLabel.sites, SiteLabel.outside] at h1
      subst h1
      exact .inr h2
  · rintro (⟨e', h1, h2⟩ | h2)
    · exact ⟨e', by rw [List.flatMap_append]; exact List.mem_append_left _ h1, h2⟩
    · exact ⟨e, by rw [List.flatMap_append]; exact List.mem_append_right _ (by simp [JobLabel.outside, JobLabel.sites, SiteLabel.outside]), h2⟩

theorem gained_other (i : Nat) (ls : List (JobLabel ω H)) {l : JobLabel ω H} (hl : ∀ e, l ≠ .site (.call i e)) : Gained i (ls ++ [l]) = Gained i ls := by
  funext h
  refine propext ⟨?_, ?_⟩
  · rintro ⟨e', h1, h2⟩
    rw [List.flatMap_append] at h1
    rcases List.mem_append.1 h1 with h1 | h1
    · exact ⟨e', h1, h2⟩
    · exfalso
      cases l with
      | site l => cases l <;> simp [JobLabel.outside, JobLabel.sites, SiteLabel.outside] at h1
                  obtain ⟨rfl, rfl⟩ := h1
                  exact hl _ rfl
      | make j => simp [JobLabel.outside, JobLabel.sites, SiteLabel.outside] at h1
      | get j => simp [JobLabel.outside, JobLabel.sites, SiteLabel.outside] at h1
  · rintro ⟨e', h1, h2⟩
    exact ⟨e', by rw [List.flatMap_append]; exact List.mem_append_left _ h1, h2⟩

theorem gained_site (i : Nat) (ls : List (JobLabel ω H)) (l : SiteLabel ω H) :
    Gained i (ls ++ [.site l]) = fun h => Gained i ls h ∨ ∃ e, l = .call i e ∧ e.gives = some h := by
  by_cases hl : ∃ e, l = .call i e
  · obtain ⟨e, rfl⟩ := hl
    rw [gained_call]
    funext h
    refine propext ⟨Or.imp_right fun h => ⟨e, rfl, h⟩, Or.imp_right fun ⟨e', h1, h2⟩ => ?_⟩
    cases h1
    exact h2
  · rw [gained_other i ls fun e he => hl ⟨e, by cases he; rfl⟩]
    funext h
    exact propext ⟨.inl, fun hx => hx.elim id fun ⟨e, he, _⟩ => absurd ⟨e, he⟩ hl⟩

theorem gained_link {i j : Nat} {l : WLabel} {G : H → Prop} :
    (fun h => G h ∨ ∃ e : Ev H, (SiteLabel.link j l : SiteLabel ω H) = .call i e ∧ e.gives = some h) = G := by
  funext h
  exact propext ⟨fun hx => hx.elim id (fun ⟨e, he, _⟩ => by cases he), .inl⟩

theorem hostCalls_other (i : Nat) {l : JobLabel ω H} (hl : ∀ e, l ≠ .site (.call i e)) : hostCalls i l.outside = [] := by
  cases l with
  | site l =>
    cases l <;> simp [JobLabel.outside, JobLabel.sites, SiteLabel.outside, hostCalls]
    rename_i j e
    rintro rfl
    exact hl e rfl
  | make j => simp [JobLabel.outside, JobLabel.sites, SiteLabel.outside, hostCalls]
  | get j => simp [JobLabel.outside, JobLabel.sites, SiteLabel.outside, hostCalls]

/-- what the others do, with the files of client `i` beside it -/
def Beside (R : (H → Prop) → ω → ω → Prop) (x y : ω × (H → Prop)) : Prop := y.2 = x.2 ∧ R x.2 x.1 y.1

theorem tended_sure {A : Type} {i : Nat} {R : (H → Prop) → ω → ω → Prop} (rf : ∀ G a, R G a a) (tr : ∀ {G a b c}, R G a b → R G b c → R G a c)
    {Q : A → ω × (H → Prop) → Prop} {p q : Prog H A} {n n' : Shop ω H α} {ls : List (JobLabel ω H)} (he : TendedExec host user i R n ls n')
    (hp : p.Path (hostCalls i (ls.flatMap JobLabel.outside)) q) (h : Sure (tagged host) (Beside R) Q p (n.site.world, fun _ => False)) :
    Sure (tagged host) (Beside R) Q q (n'.site.world, Gained i ls) := by
  have tr' : ∀ {a b c : ω × (H → Prop)}, Beside R a b → Beside R b c → Beside R a c := by
    rintro a b c ⟨h1, h2⟩ ⟨h3, h4⟩
    exact ⟨h3.trans h1, tr h2 (by rw [h1] at h4; exact h4)⟩
  induction he generalizing q with
  | refl =>
    rw [← path_none hp]
    have : Gained i ([] : List (JobLabel ω H)) = fun _ => False := by
      funext h; exact propext ⟨fun h => (by obtain ⟨e, h1, -⟩ := h; cases h1), False.elim⟩
    rw [this]
    exact h
  | @step n1 n2 ls l he hs hr ih =>
    rw [List.flatMap_append, hostCalls_append, List.flatMap_singleton] at hp
    by_cases hl : ∀ e, l ≠ .site (.call i e)
    · rw [hostCalls_other i hl, List.append_nil] at hp
      rw [gained_other i ls hl]
      exact (ih hp).later @tr' ⟨rfl, hr.resolve_right fun ⟨e, he⟩ => hl e he⟩
    · obtain ⟨e, rfl⟩ : ∃ e, l = .site (.call i e) := Classical.byContradiction fun h => hl fun e he => h ⟨e, he⟩
      rw [gained_call]
      cases hs with
      | site _ _ s' hne hst =>
        cases hst with
        | call _ j x k hx hk =>
          simp only [JobLabel.outside, JobLabel.sites, SiteLabel.outside, hostCalls, List.flatMap_cons, List.flatMap_nil, List.append_nil, if_true] at hp
          obtain ⟨k', h1, rfl⟩ := path_split hp
          have := ih h1 _ ⟨rfl, rf _ _⟩
          rw [tagged_exec] at this
          exact this

theorem job_tended {α : Type} (hh : host.Short) (hu : user.length < 2 ^ 13) {root : GoString} {w : ω}
    {jobs : Nat → Job α} (hj : ∀ i, (jobs i).Proper) {n : Shop ω H α} {ls : List (JobLabel ω H)} {i : Nat} {R : (H → Prop) → ω → ω → Prop}
    (rf : ∀ G a, R G a a) (tr : ∀ {G a b c}, R G a b → R G b c → R G a c)
    (he : TendedExec host user i R (Shop.start root w jobs) ls n) (hl : ∀ l ∈ ls, l.Clean)
    {a : α} (ha : n.stage i = .next (.ret a)) {Q : α → ω × (H → Prop) → Prop}
    (hq : Sure (tagged host) (Beside R) (fun x w => Q x.2 w) ((jobs i).prog user (newObj root)) (w, fun _ => False)) :
    Q a (n.site.world, Gained i ls) :=
  tended_sure rf @tr he (job_path hh hu hj he.exec hl ha) hq _ ⟨rfl, rf _ _⟩

/-! ### what keeps the clients apart -/

/-- What `os.OpenFile` returns is new: `used` are the open files that there are or have been. -/
structure NewFiles (host : Host ω H) where
  used : H → ω → Prop
  fresh : ∀ {p f m w w' h}, host.openFile p f m w = (w', .ok h) → ¬ used h w ∧ used h w'
  keeps : ∀ {h w} (c : HCall H), used h w → used h (host.exec c w).1

/-- the calls of the operating system that make no names and change none, nor the attributes of files -/
def Mild : HCall H → Prop
  | .mkdir _ _ | .chmod _ _ | .rename _ _ | .truncate _ _ | .chtimes _ _ _ | .remove _ => False
  | .openFile _ f _ => f &&& O_CREATE = 0
  | _ => True

/-- the requests that do not -/
def Meek : TMsg → Prop
  | .create _ | .remove _ | .wstat _ => False
  | _ => True

theorem Meek.mild {m : TMsg} (hm : Meek m) {root : GoString} {files : FID → Option (File H)} {c : HCall H} (hc : MayCall root files m c) : Mild c := by
  cases m <;> cases c <;> first | exact hm.elim | exact hc.elim | trivial | skip
  obtain ⟨f, -, -, -, h, -⟩ := hc
  exact h

/-- What client `i` has opened are files that there are; no other client has one of them, nor does one use them, and what the others still
have to do is in `C`. -/
structure KeptApart (K : NewFiles host) (C : HCall H → Prop) (i : Nat) (G : H → Prop) (s : Site ω H) : Prop where
  mine : ∀ h, G h → K.used h s.world
  held : ∀ j, j ≠ i → HeldIn (fun h => K.used h s.world ∧ ¬ G h) (s.link j).w.srv.ns
  work : ∀ j, j ≠ i → ∀ q, (s.link j).running = some q →
    (∃ prev, q.Safe (fun _ c => C c) (fun _ => True) prev) ∧ KeepsTo (fun h => K.used h s.world ∧ ¬ G h) q

section
variable {K : NewFiles host} {C : HCall H → Prop} {i : Nat} {G : H → Prop} {s : Site ω H}

theorem KeptApart.later (h : KeptApart K C i G s) {w : ω} {G' : H → Prop} (h1 : ∀ h, G' h → K.used h w)
    (h2 : ∀ h, K.used h s.world → ¬ G h → K.used h w ∧ ¬ G' h) : KeptApart K C i G' { s with world := w } :=
  ⟨h1, fun j hj => (h.held j hj).mono fun x hx => h2 x hx.1 hx.2, fun j hj q hq => ⟨(h.work j hj q hq).1,
    (h.work j hj q hq).2.mono (fun x hx => h2 x hx.1 hx.2) fun _ _ _ hS hh => hh.mono hS⟩⟩

theorem KeptApart.set (h : KeptApart K C i G s) (j : Nat) (l : Link H) (h1 : j ≠ i → HeldIn (fun h => K.used h s.world ∧ ¬ G h) l.w.srv.ns)
    (h2 : j ≠ i → ∀ q, l.running = some q → (∃ prev, q.Safe (fun _ c => C c) (fun _ => True) prev) ∧ KeepsTo (fun h => K.used h s.world ∧ ¬ G h) q) :
    KeptApart K C i G (s.setLink j l) := by
  refine ⟨h.mine, fun k hk => ?_, fun k hk q => ?_⟩
  all_goals by_cases hkj : k = j
  · subst hkj; simpa [Site.setLink, upd] using h1 hk
  · simpa [Site.setLink, upd, hkj] using h.held k hk
  · subst hkj; simpa [Site.setLink, upd] using h2 hk q
  · simpa [Site.setLink, upd, hkj] using h.work k hk q

theorem fresh_gives (K : NewFiles host) {c : HCall H} {w : ω} {h : H} (hg : Ev.gives ⟨c, (host.exec c w).2⟩ = some h) :
    ¬ K.used h w ∧ K.used h (host.exec c w).1 := by
  cases c <;> first | cases hg | skip
  rename_i q fl pm
  show ¬ K.used h w ∧ K.used h (host.openFile q fl pm w).1
  change Ev.gives ⟨.openFile q fl pm, (host.openFile q fl pm w).2⟩ = some h at hg
  generalize hx : host.openFile q fl pm w = x at hg ⊢
  obtain ⟨w', r⟩ := x
  cases r with
  | error e => cases hg
  | ok h' => cases hg; exact K.fresh hx

theorem kept_step {R : (H → Prop) → ω → ω → Prop} (rf : ∀ G w, R G w w)
    (hR : ∀ c G w, C c → (∀ h, c.uses = some h → ¬ G h) → R G w (host.exec c w).1) {T : TMsg → Prop}
    (hT : ∀ m root (files : FID → Option (File H)) c, T m → MayCall root files m c → C c)
    (hh : host.Short) (hu : user.length < 2 ^ 13) {root : GoString} {w : ω} {jobs : Nat → Job α} (hj : ∀ i, (jobs i).Proper)
    (hm : ∀ j, j ≠ i → (jobs j).All T) {n : Shop ω H α} {ls : List (JobLabel ω H)}
    (he : JobExec host user (Shop.start root w jobs) ls n) (hl : ∀ l ∈ ls, l.Clean) (hP : KeptApart K C i G n.site) {l : SiteLabel ω H} {s' : Site ω H}
    (hs : SiteStep host user l n.site s')
    (ho : ∀ w, l = .other w → (∀ h, K.used h n.site.world → K.used h w) ∧ ∀ G, R G n.site.world w) :
    KeptApart K C i (fun h => G h ∨ ∃ e, l = .call i e ∧ e.gives = some h) s' ∧ (R G n.site.world s'.world ∨ ∃ e, l = .call i e) := by
  have same : ∀ {l : SiteLabel ω H}, (∀ e, l ≠ .call i e) → (fun h => G h ∨ ∃ e, l = .call i e ∧ e.gives = some h) = G := by
    intro l hl
    funext h
    exact propext ⟨fun hx => hx.elim id fun ⟨e, he, _⟩ => absurd he (hl e), .inl⟩
  cases hs with
  | link _ j ns l w' hst hw hx =>
    rw [same (by intro e h; cases h)]
    refine ⟨?_, .inl (rf _ _)⟩
    have e := wstep_waits hst hw
    refine hP.set j _ ?_ ?_
    · show j ≠ i → HeldIn _ w'.srv.ns
      rw [e]; exact hP.held j
    · exact hP.work j
  | start _ j got spare hx hr hg =>
    rw [same (by intro e h; cases h)]
    refine ⟨?_, .inl (rf _ _)⟩
    refine hP.set j _ (hP.held j) fun hji q hq => ?_
    cases hq
    obtain ⟨m, h1, h2⟩ := job_asked hh hu hj he hl hg
    refine ⟨⟨none, ?_⟩, keeps_dispatch (hP.held j hji) _ _ _ _⟩
    refine (means_dispatch user none _ _ _).mono (fun _ c hc => ?_) fun _ _ => trivial
    obtain ⟨m', h3, h4⟩ := hc
    rw [h2 _ _ h3] at h4
    exact hT _ _ _ _ (h1 _ (hm j hji)) h4
  | call _ j x k hx hr =>
    by_cases hji : j = i
    · subst hji
      refine ⟨?_, .inr ⟨_, rfl⟩⟩
      refine KeptApart.set (s := { n.site with world := (host.exec x n.site.world).1 }) (hP.later ?_ ?_) j _ (fun h => absurd rfl h) fun h => absurd rfl h
      · rintro h (h1 | ⟨e, h1, h2⟩)
        · exact K.keeps x (hP.mine h h1)
        · cases h1; exact (fresh_gives K h2).2
      · refine fun h h1 h2 => ⟨K.keeps x h1, ?_⟩
        rintro (h3 | ⟨e, h3, h4⟩)
        · exact h2 h3
        · cases h3; exact (fresh_gives K h4).1 h1
    · have e1 : ∀ a : Ev H, (SiteLabel.call j ⟨x, (host.exec x n.site.world).2⟩ : SiteLabel ω H) ≠ .call i a := by
        intro a ha; cases ha; exact hji rfl
      rw [same e1]
      obtain ⟨⟨prev, h1⟩, h2⟩ := hP.work j hji _ hr
      refine ⟨?_, .inl (hR _ _ _ h1.1 fun h hu => (h2.1 h hu).2)⟩
      have hK := hP.later (w := (host.exec x n.site.world).1) (fun h hg => K.keeps x (hP.mine h hg)) fun h a b => ⟨K.keeps x a, b⟩
      refine hK.set j _ (fun _ => hK.held j hji) fun _ q hq => ?_
      cases hq
      refine ⟨⟨_, h1.2 _⟩, (h2.2 _).mono (fun h hh => ?_) fun _ _ _ hS hh => hh.mono hS⟩
      rcases hh with hh | hh
      · exact ⟨K.keeps x hh.1, hh.2⟩
      · exact ⟨(fresh_gives K hh).2, fun hg => (fresh_gives K hh).1 (hP.mine h hg)⟩
  | reply _ j o v' b hx hr =>
    rw [same (by intro e h; cases h)]
    exact ⟨hP.set j _ (fun hji => (hP.work j hji _ hr).2) (fun _ q hq => by cases hq), .inl (rf _ _)⟩
  | replyFails _ j o v' b x hx hr =>
    rw [same (by intro e h; cases h)]
    exact ⟨hP.set j _ (fun hji => (hP.work j hji _ hr).2) (fun _ q hq => by cases hq), .inl (rf _ _)⟩
  | panic _ j => rw [same (by intro e h; cases h)]; exact ⟨⟨hP.mine, hP.held, hP.work⟩, .inl (rf _ _)⟩
  | fatal _ => rw [same (by intro e h; cases h)]; exact ⟨⟨hP.mine, hP.held, hP.work⟩, .inl (rf _ _)⟩
  | other _ w2 =>
    rw [same (by intro e h; cases h)]
    obtain ⟨h1, h2⟩ := ho w2 rfl
    exact ⟨hP.later (fun h hg => h1 h (hP.mine h hg)) fun h a b => ⟨h1 h a, b⟩, .inl (h2 G)⟩

end

theorem kept_start {K : NewFiles host} {C : HCall H → Prop} {i : Nat} {root : GoString} {w : ω} {jobs : Nat → Job α} :
    KeptApart K C i (Gained i ([] : List (JobLabel ω H))) (Shop.start root w jobs : Shop ω H α).site := by
  refine ⟨?_, ?_, ?_⟩
  · rintro h ⟨e, h1, -⟩; cases h1
  · intro j _ f x h hf; cases hf
  · intro j _ q hq; cases hq

theorem kept_exec {K : NewFiles host} {C : HCall H → Prop} {i : Nat} {R : (H → Prop) → ω → ω → Prop} (rf : ∀ G w, R G w w)
    (hR : ∀ c G w, C c → (∀ h, c.uses = some h → ¬ G h) → R G w (host.exec c w).1) {T : TMsg → Prop}
    (hT : ∀ m root (files : FID → Option (File H)) c, T m → MayCall root files m c → C c)
    (hh : host.Short) (hu : user.length < 2 ^ 13) {root : GoString} {w : ω} {jobs : Nat → Job α} (hj : ∀ i, (jobs i).Proper)
    (hm : ∀ j, j ≠ i → (jobs j).All T) {n : Shop ω H α} {ls : List (JobLabel ω H)}
    (he : QuietExec host user (fun w w' => (∀ h, K.used h w → K.used h w') ∧ ∀ G, R G w w') (Shop.start root w jobs) ls n) (hl : ∀ l ∈ ls, l.Clean) :
    KeptApart K C i (Gained i ls) n.site ∧ TendedExec host user i R (Shop.start root w jobs) ls n := by
  generalize hs : Shop.start root w jobs = n0 at he
  induction he with
  | refl => subst hs; exact ⟨kept_start, .refl _⟩
  | @step n1 n2 ls l h1 hst ho ih =>
    obtain ⟨hK, hg⟩ := ih (fun l h => hl l (List.mem_append_left _ h))
    have hx : JobExec host user (Shop.start root w jobs) ls n1 := hs ▸ h1.exec
    have hc : ∀ l ∈ ls, JobLabel.Clean l := fun l h => hl l (List.mem_append_left _ h)
    cases hst with
    | site _ l s' hne hst =>
      obtain ⟨h4, h5⟩ := kept_step rf hR hT hh hu hj hm hx hc hK hst fun w hw => ho w (by rw [hw])
      refine ⟨by rw [gained_site]; exact h4, hg.step (.site _ _ _ hne hst) (h5.imp id fun ⟨e, he⟩ => ⟨e, by rw [he]⟩)⟩
    | make _ j c m k s' g1 g2 hst g3 =>
      obtain ⟨h4, h5⟩ := kept_step rf hR hT hh hu hj hm hx hc hK hst fun w hw => by cases hw
      refine ⟨?_, hg.step (.make _ _ _ _ _ _ g1 g2 hst g3) (.inl (h5.resolve_right fun ⟨e, he⟩ => by cases he))⟩
      rw [gained_other i ls (by intro e h; cases h)]
      rw [gained_link] at h4
      exact h4
    | get _ j c m k b spare g1 g2 g3 =>
      refine ⟨?_, hg.step (.get _ _ _ _ _ _ _ g1 g2 g3) (.inl (rf _ _))⟩
      rw [gained_other i ls (by intro e h; cases h)]
      exact hK

/-- what is not done for client `i` keeps to `J`, and leaves the files that client `i` has opened as they are -/
def KeepsOff (J : ω → Prop) (M : H → ω → Prop) (G : H → Prop) (w w' : ω) : Prop := (J w → J w') ∧ ∀ h, G h → M h w → M h w'

/-- what other processes do: they let the file be, keep to `J` and leave open files as they are -/
def LetAllBe (L : Linkless V N) (K : NewFiles host) (v : ν) (p : GoString) (J : ω → Prop) (M : H → ω → Prop) (w w' : ω) : Prop :=
  LetBe L v p w w' ∧ (∀ h, K.used h w → K.used h w') ∧ (J w → J w') ∧ ∀ h, M h w → M h w'

/-- what the other clients do -/
def Aside (V : FileView host ν) (N : NameView host ν) (v : ν) (p : GoString) (J : ω → Prop) (M : H → ω → Prop) (G : H → Prop) (w w' : ω) : Prop :=
  Leaves V N v p w w' ∧ KeepsOff J M G w w'

theorem aside_exec {L : Linkless V N} {K : NewFiles host} {i : Nat} {v : ν} {root p : GoString} {J : ω → Prop} {M : H → ω → Prop}
    (hJ : ∀ c w, Mild c → J w → J (host.exec c w).1) (hM : ∀ c h w, c.uses ≠ some h → M h w → M h (host.exec c w).1)
    (hh : host.Short) (hu : user.length < 2 ^ 13) {w : ω} {jobs : Nat → Job α} (hj : ∀ i, (jobs i).Proper)
    (hm : ∀ j, j ≠ i → (jobs j).All Meek) (P : Peace L i root p jobs) (hv : N.node p w = some v)
    {n : Shop ω H α} {ls : List (JobLabel ω H)}
    (he : QuietExec host user (LetAllBe L K v p J M) (Shop.start root w jobs) ls n) (hl : ∀ l ∈ ls, l.Clean) :
    P.Inv v n.site ∧ KeptApart K Mild i (Gained i ls) n.site ∧ TendedExec host user i (Aside V N v p J M) (Shop.start root w jobs) ls n := by
  have hR : ∀ c G w, Mild c → (∀ h, c.uses = some h → ¬ G h) → KeepsOff J M G w (host.exec c w).1 :=
    fun c G w hc hG => ⟨hJ c w hc, fun h hg hm => hM c h w (fun hu => hG h hu hg) hm⟩
  have rf : ∀ G w, KeepsOff J M G w w := fun _ _ => ⟨id, fun _ _ => id⟩
  have hT : ∀ m root (files : FID → Option (File H)) c, Meek m → MayCall root files m c → Mild c := fun _ _ _ _ h h' => h.mild h'
  generalize hs : Shop.start root w jobs = n0 at he
  induction he with
  | refl =>
    subst hs
    refine ⟨⟨hv, fun j => ⟨rfl, nofun⟩, (fun j _ f x h _ hf => nomatch hf), (fun j q hq => nomatch hq)⟩, kept_start, .refl _⟩
  | @step n1 n2 ls l h1 hst ho ih =>
    obtain ⟨hP, hK, hg⟩ := ih (fun l h => hl l (List.mem_append_left _ h))
    have hx : JobExec host user (Shop.start root w jobs) ls n1 := hs ▸ h1.exec
    have hc : ∀ l ∈ ls, JobLabel.Clean l := fun l h => hl l (List.mem_append_left _ h)
    cases hst with
    | site _ l s' hne hst =>
      obtain ⟨h2, h3⟩ := peace_step hh hu hj hx hc hP hst fun w hw => (ho w (by rw [hw])).1
      obtain ⟨h4, h5⟩ := kept_step rf hR hT hh hu hj hm hx hc hK hst fun w hw =>
        have := ho w (by rw [hw]); ⟨this.2.1, fun G => ⟨this.2.2.1, fun h _ => this.2.2.2 h⟩⟩
      refine ⟨h2, ?_, hg.step (.site _ _ _ hne hst) ?_⟩
      · rw [gained_site]; exact h4
      · by_cases hl : ∃ e, l = .call i e
        · obtain ⟨e, rfl⟩ := hl; exact .inr ⟨e, rfl⟩
        · exact .inl ⟨h3.resolve_right hl, h5.resolve_right hl⟩
    | make _ j c m k s' g1 g2 hst g3 =>
      obtain ⟨h2, h3⟩ := peace_step hh hu hj hx hc hP hst fun w hw => by cases hw
      obtain ⟨h4, h5⟩ := kept_step rf hR hT hh hu hj hm hx hc hK hst fun w hw => by cases hw
      refine ⟨h2, ?_, hg.step (.make _ _ _ _ _ _ g1 g2 hst g3) (.inl ⟨?_, ?_⟩)⟩
      · rw [gained_other i ls (by intro e h; cases h)]
        rw [gained_link] at h4
        exact h4
      · exact h3.resolve_right fun ⟨e, he⟩ => by cases he
      · exact h5.resolve_right fun ⟨e, he⟩ => by cases he
    | get _ j c m k b spare g1 g2 g3 =>
      refine ⟨hP, ?_, hg.step (.get _ _ _ _ _ _ _ g1 g2 g3) (.inl ⟨Leaves.refl _, id, fun _ _ => id⟩)⟩
      rw [gained_other i ls (by intro e h; cases h)]
      exact hK

theorem Aside.refl {v : ν} {p : GoString} {J : ω → Prop} {M : H → ω → Prop} (G : H → Prop) (w : ω) : Aside V N v p J M G w w :=
  ⟨Leaves.refl w, id, fun _ _ => id⟩

theorem Aside.trans {v : ν} {p : GoString} {J : ω → Prop} {M : H → ω → Prop} {G : H → Prop} {a b c : ω} (h : Aside V N v p J M G a b)
    (h' : Aside V N v p J M G b c) : Aside V N v p J M G a c :=
  ⟨h.1.trans h'.1, fun hj => h'.2.1 (h.2.1 hj), fun x hx hm => h'.2.2 x hx (h.2.2 x hx hm)⟩

theorem Beside.refl {v : ν} {p : GoString} {J : ω → Prop} {M : H → ω → Prop} (x : ω × (H → Prop)) : Beside (Aside V N v p J M) x x :=
  ⟨rfl, Aside.refl _ _⟩

theorem Beside.trans {v : ν} {p : GoString} {J : ω → Prop} {M : H → ω → Prop} {a b c : ω × (H → Prop)} (h : Beside (Aside V N v p J M) a b)
    (h' : Beside (Aside V N v p J M) b c) : Beside (Aside V N v p J M) a c :=
  ⟨h'.1.trans h.1, h.2.trans (by have := h'.2; rw [h.1] at this; exact this)⟩

theorem tended_fetched (hO : Opens V N) (hh : host.Short) (hu : user.length < 2 ^ 13) {root : GoString} {w : ω} {jobs : Nat → Job Got}
    (hj : ∀ i, (jobs i).Proper) {n : Shop ω H Got} {ls : List (JobLabel ω H)} {i : Nat} {path : List GoString} {c : Count} (hc : 0 < c.toInt) {k : Nat}
    (hi : jobs i = fetch path c k) {v : ν} (hv : N.node (placeOf root path) w = some v) {J : ω → Prop} {M : H → ω → Prop}
    (hcan : CanRead V root path v J M) (hJ : J w) (hsz : (V.content v w).length < k) (hsz' : (V.content v w).length < 2 ^ 63)
    (he : TendedExec host user i (Aside V N v (placeOf root path) J M) (Shop.start root w jobs) ls n) (hl : ∀ l ∈ ls, l.Clean)
    {a : Got} (ha : n.stage i = .next (.ret a)) : a = .whole (V.content v w) ∧ V.content v n.site.world = V.content v w := by
  have h := job_tended hh hu hj Aside.refl Aside.trans he hl ha
    (Q := fun a x => Fetched (taggedFiles V) (taggedNames N) v (placeOf root path) (V.content v w) k a x ∧ (a = .failed → False))
    (by
      rw [hi]
      exact sure_fetch hO.tagged hc k Beside.refl Beside.trans (fun h _ => h.2.1) (fun h => h.2.2.1)
        (fun {x y} h z hz => ⟨h.2.2.2 z hz.2 hz.1, by rw [h.1]; exact hz.2⟩) (.inl hcan.tagged) (.inl hsz') ⟨hv, rfl⟩ hJ)
  cases a with
  | whole d => exact ⟨by rw [h.1.1], h.1.2.2⟩
  | part => exact absurd h.1.1 (by omega)
  | failed => exact (h.2 rfl).elim

theorem tended_stored (hO : Opens V N) (hh : host.Short) (hu : user.length < 2 ^ 13) {root : GoString} {w : ω} {jobs : Nat → Job Got}
    (hj : ∀ i, (jobs i).Proper) {n : Shop ω H Got} {ls : List (JobLabel ω H)} {i : Nat} {path : List GoString} {bs : List Bytes}
    (hb : ∀ b ∈ bs, b.length < 2 ^ 31) (hi : jobs i = store path bs) {v : ν} (hv : N.node (placeOf root path) w = some v) {J : ω → Prop} {M : H → ω → Prop}
    (hcan : CanWrite V root path v J M) (hJ : J w) (hsz : bs.flatten.length < 2 ^ 63)
    (he : TendedExec host user i (Aside V N v (placeOf root path) J M) (Shop.start root w jobs) ls n) (hl : ∀ l ∈ ls, l.Clean)
    {a : Got} (ha : n.stage i = .next (.ret a)) : a = .whole bs.flatten ∧ V.content v n.site.world = bs.flatten := by
  have h := job_tended hh hu hj Aside.refl Aside.trans he hl ha
    (Q := fun a x => Stored (taggedFiles V) (taggedNames N) v (placeOf root path) bs.flatten a x ∧ (a = .failed → False))
    (by
      rw [hi]
      exact sure_store hO.tagged hb Beside.refl Beside.trans (fun h _ => h.2.1) (fun h => h.2.2.1)
        (fun {x y} h z hz => ⟨h.2.2.2 z hz.2 hz.1, by rw [h.1]; exact hz.2⟩) (.inl hcan.tagged) (.inl hsz) hv hJ)
  cases a with
  | whole d => exact ⟨by rw [h.1.1], h.1.2.2⟩
  | part => exact h.1.elim
  | failed => exact (h.2 rfl).elim

/-! ### listing -/

open Classical in
/-- open directories, as far as they are among the files of the client -/
noncomputable def taggedDirs (D : DirView host) : DirView (tagged host) where
  listing h x := if x.2 h then D.listing h x.1 else none
  rest h x := D.rest h x.1
  seek := by
    intro h w w' l hl hx
    have h1 : (host.seek0 h w.1).2 = none := (Prod.mk.inj hx).2
    rw [← (Prod.mk.inj hx).1]
    split at hl
    · rename_i hg
      dsimp only
      rw [if_pos hg]
      exact D.seek hl (by rw [← h1])
    · cases hl
  next_nil := by
    intro h w w' r l hl hr hx hf
    rw [← (Prod.mk.inj hx).1]
    split at hl
    · rename_i hg
      dsimp only
      rw [if_pos hg]
      exact D.next_nil hl hr (by rw [← (Prod.mk.inj hx).2]) hf
    · cases hl
  next_cons := by
    intro h w w' r l fi t hl hr hx hf
    rw [← (Prod.mk.inj hx).1]
    split at hl
    · rename_i hg
      dsimp only
      rw [if_pos hg]
      exact D.next_cons hl hr (by rw [← (Prod.mk.inj hx).2]) hf
    · cases hl

variable {D : DirView host} {E : GoString → ω → Option (List FileInfo)}

theorem OpensDirs.tagged (hO : OpensDirs D E) : OpensDirs (taggedDirs D) fun p x => E p x.1 where
  opened := by
    intro p fl m w w' h l h1 h2 he hx
    have h3 : (host.openFile p fl m w.1).2 = .ok h := (Prod.mk.inj hx).2
    rw [← (Prod.mk.inj hx).1]
    unfold taggedDirs
    dsimp only
    rw [if_pos (.inr h3)]
    exact hO.opened h1 h2 he (by rw [← h3])
  stat p q w l h := hO.stat p q w.1 l h
  lstat p q w l h := hO.lstat p q w.1 l h

theorem CanList.tagged {root : GoString} {path : List GoString} {J : ω → Prop} {M : H → ω → Prop} (h : CanList D root path J M) :
    CanList (taggedDirs D) root path (fun x => J x.1) (fun y x => M y x.1 ∧ x.2 y) where
  reach := h.reach.tagged
  seeks y w w' r hj hm hx := by
    rw [← (Prod.mk.inj hx).1, ← (Prod.mk.inj hx).2]
    obtain ⟨h1, h2, h3⟩ := h.seeks y w.1 _ _ hj hm.1 rfl
    exact ⟨h1, ⟨h2, hm.2⟩, h3⟩
  reads y w w' r l hj hm hl hx := by
    rw [← (Prod.mk.inj hx).1, ← (Prod.mk.inj hx).2]
    unfold taggedDirs at hl
    dsimp only at hl
    rw [if_pos hm.2] at hl
    obtain ⟨h1, h2, h3⟩ := h.reads y w.1 _ _ l hj hm.1 hl rfl
    exact ⟨h1, ⟨h2, hm.2⟩, h3⟩

/-- the others leave the directory at `p` alone, and the open directories `G` too; they keep to `J` and do not close the files of `G` -/
structure AsideDir (D : DirView host) (E : GoString → ω → Option (List FileInfo)) (p : GoString) (J : ω → Prop) (M : H → ω → Prop) (G : H → Prop) (w w' : ω) : Prop where
  entries : E p w' = E p w
  listed : ∀ h l, G h → D.listing h w = some l → D.listing h w' = some l ∧ D.rest h w' = D.rest h w
  inv : J w → J w'
  mine : ∀ h, G h → M h w → M h w'

theorem AsideDir.refl {p : GoString} {J : ω → Prop} {M : H → ω → Prop} (G : H → Prop) (w : ω) : AsideDir D E p J M G w w :=
  ⟨rfl, fun _ _ _ h => ⟨h, rfl⟩, id, fun _ _ => id⟩

theorem AsideDir.trans {p : GoString} {J : ω → Prop} {M : H → ω → Prop} {G : H → Prop} {a b c : ω} (h : AsideDir D E p J M G a b) (h' : AsideDir D E p J M G b c) :
    AsideDir D E p J M G a c :=
  ⟨h'.entries.trans h.entries, fun x l hg hl => ⟨(h'.listed x l hg (h.listed x l hg hl).1).1, (h'.listed x l hg (h.listed x l hg hl).1).2.trans (h.listed x l hg hl).2⟩,
    fun hj => h'.inv (h.inv hj), fun x hg hx => h'.mine x hg (h.mine x hg hx)⟩

theorem AsideDir.tagged {p : GoString} {J : ω → Prop} {M : H → ω → Prop} {x y : ω × (H → Prop)} (h : Beside (AsideDir D E p J M) x y) :
    LeavesDir (taggedDirs D) (fun p x => E p x.1) p (fun x => J x.1) (fun y x => M y x.1 ∧ x.2 y) x y where
  entries := h.2.entries
  listed z l hl := by
    unfold taggedDirs at hl ⊢
    dsimp only at hl ⊢
    split at hl
    · rename_i hg
      rw [h.1, if_pos hg]
      exact h.2.listed z l hg hl
    · cases hl
  inv := h.2.inv
  mine z hz := ⟨h.2.mine z hz.2 hz.1, by rw [h.1]; exact hz.2⟩

theorem Sure.fewer {A : Type} {host : Host ω H} {R R' : ω → ω → Prop} (hR : ∀ {a b}, R' a b → R a b) {Q : A → ω → Prop} {p : Prog H A} {w : ω}
    (h : Sure host R Q p w) : Sure host R' Q p w := by
  induction p generalizing w with
  | ret a => exact fun w' h' => h w' (hR h')
  | panic => trivial
  | call c k ih => exact fun w' h' => ih _ (h w' (hR h'))

theorem readOnly_may {m : TMsg} (hm : ReadOnly m) {root : GoString} {files : FID → Option (File H)} {c : HCall H} (hc : MayCall root files m c) : ¬ c.Modifies := by
  intro h
  cases m <;> cases c <;> first | exact hm.elim | exact hc.elim | exact h.elim | skip
  obtain ⟨f, -, -, -, h1, h2, -⟩ := hc
  exact h.elim (fun h => h h1) fun h => h (h2 hm)

/-! ### C104 -/

/-- In the worlds `J`, the file of the task can be read or written. -/
def Task.Can (V : FileView host ν) (root : GoString) (v : ν) (J : ω → Prop) (M : H → ω → Prop) : Task → Prop
  | .reads path _ _ => CanRead V root path v J M
  | .writes path _ => CanWrite V root path v J M

/-- The task fits what there is: it reads often enough for a file with the contents `d`, and no file is too long. -/
def Task.Enough (d : Bytes) : Task → Prop
  | .reads _ _ k => d.length < k ∧ d.length < 2 ^ 63
  | .writes _ bs => bs.flatten.length < 2 ^ 63

/-- what the task is to come to, for a file with the contents `d` at the start -/
def Task.goal (d : Bytes) : Task → Bytes
  | .reads _ _ _ => d
  | .writes _ bs => bs.flatten

theorem openAt_meek {path : List GoString} {mode : Mode} {good : QID → Bool} {k : Job Got} (hk : k.All Meek) : (openAt path mode good k).All Meek := by
  refine Job.ok_all trivial fun _ => Job.ok_all trivial fun _ => Job.ok_all trivial fun r => ?_
  cases r <;> first | trivial | skip
  dsimp only
  split
  · refine Job.ok_all trivial fun r => ?_
    cases r <;> first | trivial | skip
    dsimp only
    split
    · exact hk
    · trivial
  · trivial

theorem task_meek (t : Task) : t.job.All Meek := by
  cases t with
  | reads path c n =>
    refine openAt_meek ?_
    have : ∀ off acc, (readAll 1 c n off acc).All Meek := by
      induction n with
      | zero => exact fun _ _ => trivial
      | succ n ih =>
        intro off acc
        refine Job.ok_all trivial fun r => ?_
        cases r <;> first | trivial | skip
        dsimp only
        split
        · exact Job.ok_all trivial fun _ => trivial
        · exact ih _ _
    exact this _ _
  | writes path bs =>
    refine openAt_meek ?_
    have : ∀ off acc, (writeAll 1 bs off acc).All Meek := by
      induction bs with
      | nil => exact fun _ _ => Job.ok_all trivial fun _ => trivial
      | cons b bs ih =>
        intro off acc
        refine Job.ok_all trivial fun r => ?_
        cases r <;> first | trivial | skip
        dsimp only
        split
        · exact ih _ _
        · trivial
    exact this _ _

/-- **C104** Client `i` reads a file that can be read, while the others run programs that are well-mannered and neither create, remove nor
change the attributes of files.  Then it gets the whole file. -/
theorem C104_fetch (L : Linkless V N) (hO : Opens V N) (K : NewFiles host) (hh : host.Short) (hu : user.length < 2 ^ 13) (root : GoString) (w : ω)
    (jobs : Nat → Job Got) (hj : ∀ i, (jobs i).Proper) (i : Nat) (path : List GoString) (c : Count) (hc : 0 < c.toInt) (k : Nat) (hi : jobs i = fetch path c k)
    (v : ν) (hv : N.node (placeOf root path) w = some v)
    (A : Nat → FID → GoString → Prop) (W : Nat → FID → Prop) (hW : ∀ j, j ≠ i → ∀ f q, W j f → A j f q → L.other (placeOf root path) q)
    (ho : ∀ j, j ≠ i → (jobs j).All (Mannered root (placeOf root path) (L.other (placeOf root path)) (A j) (W j))) (hm : ∀ j, j ≠ i → (jobs j).All Meek)
    (J : ω → Prop) (M : H → ω → Prop) (hJ : ∀ c w, Mild c → J w → J (host.exec c w).1) (hM : ∀ c h w, c.uses ≠ some h → M h w → M h (host.exec c w).1)
    (hcan : CanRead V root path v J M) (hw : J w) (hsz : (V.content v w).length < k) (hsz' : (V.content v w).length < 2 ^ 63)
    (n : Shop ω H Got) (ls : List (JobLabel ω H)) (he : QuietExec host user (LetAllBe L K v (placeOf root path) J M) (Shop.start root w jobs) ls n)
    (hl : ∀ l ∈ ls, l.Clean) (a : Got) (ha : n.stage i = .next (.ret a)) :
    a = .whole (V.content v w) ∧ V.content v n.site.world = V.content v w := by
  have P : Peace L i root (placeOf root path) jobs := ⟨fun j => if j = i then fidsOf root path else A j, W,
    fun j hji => by rw [if_neg hji]; exact hW j hji, fun j hji => by rw [if_neg hji]; exact ho j hji,
    by rw [if_pos rfl, hi]; exact fetch_mannered fun _ h => h⟩
  exact tended_fetched hO hh hu hj hc hi hv hcan hw hsz hsz' (aside_exec hJ hM hh hu hj hm P hv he hl).2.2 hl ha

/-- **C104** The same for a client that writes a file. -/
theorem C104_store (L : Linkless V N) (hO : Opens V N) (K : NewFiles host) (hh : host.Short) (hu : user.length < 2 ^ 13) (root : GoString) (w : ω)
    (jobs : Nat → Job Got) (hj : ∀ i, (jobs i).Proper) (i : Nat) (path : List GoString) (bs : List Bytes) (hb : ∀ b ∈ bs, b.length < 2 ^ 31)
    (hi : jobs i = store path bs) (v : ν) (hv : N.node (placeOf root path) w = some v)
    (A : Nat → FID → GoString → Prop) (W : Nat → FID → Prop) (hW : ∀ j, j ≠ i → ∀ f q, W j f → A j f q → L.other (placeOf root path) q)
    (ho : ∀ j, j ≠ i → (jobs j).All (Mannered root (placeOf root path) (L.other (placeOf root path)) (A j) (W j))) (hm : ∀ j, j ≠ i → (jobs j).All Meek)
    (J : ω → Prop) (M : H → ω → Prop) (hJ : ∀ c w, Mild c → J w → J (host.exec c w).1) (hM : ∀ c h w, c.uses ≠ some h → M h w → M h (host.exec c w).1)
    (hcan : CanWrite V root path v J M) (hw : J w) (hsz : bs.flatten.length < 2 ^ 63)
    (n : Shop ω H Got) (ls : List (JobLabel ω H)) (he : QuietExec host user (LetAllBe L K v (placeOf root path) J M) (Shop.start root w jobs) ls n)
    (hl : ∀ l ∈ ls, l.Clean) (a : Got) (ha : n.stage i = .next (.ret a)) :
    a = .whole bs.flatten ∧ V.content v n.site.world = bs.flatten := by
  have P : Peace L i root (placeOf root path) jobs := ⟨fun j => if j = i then fidsOf root path else A j, W,
    fun j hji => by rw [if_neg hji]; exact hW j hji, fun j hji => by rw [if_neg hji]; exact ho j hji,
    by rw [if_pos rfl, hi]; exact store_mannered trivial (fun _ h => h) trivial⟩
  exact tended_stored hO hh hu hj hb hi hv hcan hw hsz (aside_exec hJ hM hh hu hj hm P hv he hl).2.2 hl ha

/-- **C104** Any number of clients read and write files at the same time, and the calls of the operating system for client `i` do not
fail.  If no other client writes the file of client `i`, then whatever the order in which things happen, client `i` gets the whole file, or
has written everything. -/
theorem C104_tasks (L : Linkless V N) (hO : Opens V N) (K : NewFiles host) (hh : host.Short) (hu : user.length < 2 ^ 13) (root : GoString) (w : ω)
    (tasks : Nat → Task) (hj : ∀ i, (tasks i).Proper) (i : Nat) (v : ν) (hv : N.node (placeOf root (tasks i).path) w = some v)
    (ho : ∀ j, j ≠ i → (tasks j).Writes → L.other (placeOf root (tasks i).path) (placeOf root (tasks j).path))
    (J : ω → Prop) (M : H → ω → Prop) (hJ : ∀ c w, Mild c → J w → J (host.exec c w).1) (hM : ∀ c h w, c.uses ≠ some h → M h w → M h (host.exec c w).1)
    (hcan : (tasks i).Can V root v J M) (hw : J w) (hsz : (tasks i).Enough (V.content v w))
    (n : Shop ω H Got) (ls : List (JobLabel ω H))
    (he : QuietExec host user (LetAllBe L K v (placeOf root (tasks i).path) J M) (Shop.start root w fun j => (tasks j).job) ls n) (hl : ∀ l ∈ ls, l.Clean)
    (a : Got) (ha : n.stage i = .next (.ret a)) :
    a = .whole ((tasks i).goal (V.content v w)) ∧ V.content v n.site.world = (tasks i).goal (V.content v w) := by
  have hA : ∀ j, j ≠ i → ∀ f q, (tasks j).fids f → fidsOf root (tasks j).path f q → L.other (placeOf root (tasks i).path) q := by
    rintro j hji f q ⟨h1, h2⟩ ⟨h3, h4⟩
    rcases h2 with h2 | ⟨h2, h5⟩
    · rw [h4 h2]; exact ho j hji h1
    · rw [h3 h5, ← h2]; exact ho j hji h1
  have hm : ∀ j, j ≠ i → (tasks j).job.All (Mannered root (placeOf root (tasks i).path) (L.other (placeOf root (tasks i).path)) (fidsOf root (tasks j).path) (tasks j).fids) :=
    fun j hji => task_mannered _ (ho j hji)
  cases hi : tasks i with
  | reads path c k =>
    rw [hi] at hv hcan hsz he hm hA
    have hc : 0 < c.toInt := by have := hj i; rw [hi] at this; exact this.2
    exact C104_fetch L hO K hh hu root w _ (fun j => (hj j).job) i path c hc k (by rw [hi]; rfl) v hv _ _ hA hm (fun j _ => task_meek _) J M hJ hM hcan hw
      hsz.1 hsz.2 n ls he hl a ha
  | writes path bs =>
    rw [hi] at hv hcan hsz he hm hA
    have hb : ∀ b ∈ bs, b.length < 2 ^ 31 := by have := hj i; rw [hi] at this; exact this.2
    exact C104_store L hO K hh hu root w _ (fun j => (hj j).job) i path bs hb (by rw [hi]; rfl) v hv _ _ hA hm (fun j _ => task_meek _) J M hJ hM hcan hw
      hsz n ls he hl a ha

/-- **C104** Client `i` lists a directory that can be listed, while the others run programs that only look.  Then it gets all entries,
in order and each one once. -/
theorem C104_list (hO : OpensDirs D E) (K : NewFiles host) (hh : host.Short) (hu : user.length < 2 ^ 13) (root : GoString) (w : ω) (jobs : Nat → Job Got)
    (hj : ∀ i, (jobs i).Proper) (i : Nat) (path : List GoString) (c : Count) (hc : 0 ≤ c.toInt) (k : Nat) (hi : jobs i = lister path c k)
    (hro : ∀ j, j ≠ i → (jobs j).All ReadOnly) (l : List FileInfo) (hl : E (placeOf root path) w = some l)
    (J : ω → Prop) (M : H → ω → Prop) (hE : ∀ c w, ¬ c.Modifies → E (placeOf root path) (host.exec c w).1 = E (placeOf root path) w)
    (hD : ∀ c h l w, c.uses ≠ some h → D.listing h w = some l → D.listing h (host.exec c w).1 = some l ∧ D.rest h (host.exec c w).1 = D.rest h w)
    (hJ : ∀ c w, ¬ c.Modifies → J w → J (host.exec c w).1) (hM : ∀ c h w, c.uses ≠ some h → M h w → M h (host.exec c w).1)
    (hcan : CanList D root path J M) (hw : J w)
    (hfit : ∀ fi ∈ l, ((record user fi).length : Int) ≤ c.toInt) (hsum : (l.map (record user)).flatten.length < 2 ^ 64) (hk : l.length < k)
    (n : Shop ω H Got) (ls : List (JobLabel ω H))
    (he : QuietExec host user (fun w w' => (∀ h, K.used h w → K.used h w') ∧ LeavesDir D E (placeOf root path) J M w w') (Shop.start root w jobs) ls n)
    (hc' : ∀ l ∈ ls, l.Clean) (a : Got) (ha : n.stage i = .next (.ret a)) : a = .whole (l.map (record user)).flatten := by
  have he' : QuietExec host user (fun w w' => (∀ h, K.used h w → K.used h w') ∧ ∀ G, AsideDir D E (placeOf root path) J M G w w') (Shop.start root w jobs) ls n := by
    refine he.mono fun _ _ h => ⟨h.1, fun G => ⟨h.2.entries, fun h' l _ => h.2.listed h' l, h.2.inv, fun h' _ => h.2.mine h'⟩⟩
  have ht := (kept_exec (C := fun c => ¬ c.Modifies) (R := AsideDir D E (placeOf root path) J M) (T := ReadOnly) AsideDir.refl
    (fun c G w h1 h2 => ⟨hE c w h1, fun h l hg hl => hD c h l w (fun hu => h2 h hu hg) hl, hJ c w h1, fun h hg => hM c h w fun hu => h2 h hu hg⟩)
    (fun _ _ _ _ h1 h2 => readOnly_may h1 h2) hh hu hj hro he' hc').2
  have h := job_tended hh hu hj AsideDir.refl AsideDir.trans ht hc' ha (Q := fun a _ => ListedAs user l k a ∧ (a = .failed → False))
    (by rw [hi]; exact (sure_lister hO.tagged (.inl hcan.tagged) hc hfit hsum k hl hw).fewer AsideDir.tagged)
  cases a with
  | whole d => rw [show d = (l.map (record user)).flatten from h.1]
  | part => exact absurd (show k ≤ l.length from h.1) (by omega)
  | failed => exact (h.2 rfl).elim

end

/-! ### an example -/

section
open Mem

/-- the worlds in which the names and kinds of files are those of `w0` -/
def SameAs (w0 w : World) : Prop := w.names = w0.names ∧ ∀ i, (w.nodes i).dir = (w0.nodes i).dir ∧ (w.nodes i).perm = (w0.nodes i).perm

theorem SameAs.set {w0 w : World} (h : SameAs w0 w) (i : Nat) (f : Node → Node) (h1 : ∀ x, (f x).dir = x.dir) (h2 : ∀ x, (f x).perm = x.perm) : SameAs w0 (setNode i f w) := by
  refine ⟨h.1, fun j => ?_⟩
  have := h.2 j
  simp only [setNode]
  split
  · rename_i hi; subst hi; rw [h1, h2]; exact this
  · exact this

theorem sameAs_mild {w0 : World} (c : HCall Nat) (w : World) (hc : Mild c) (h : SameAs w0 w) : SameAs w0 (shortHost.exec c w).1 := by
  rw [short_world]
  have hand : ∀ {α : Type} (x : Nat) (bad : α) (f : Opened → World × α), (∀ o, SameAs w0 (f o).1) → SameAs w0 (onHandle x w bad f).1 := by
    intro α x bad f hf
    unfold onHandle
    split
    · split
      · exact hf _
      · exact h
    · exact h
  cases c <;> first | exact hc.elim | exact h | skip
  · rename_i p f m
    show SameAs w0 (Mem.openFile p f m w).1
    unfold Mem.openFile
    split
    · split
      · exact h
      · show SameAs w0 (addHandle _ _ (if f / 512 % 2 = 1 then _ else w)).1
        split
        · exact h.set _ (fun n => { n with data := [] }) (fun _ => rfl) (fun _ => rfl)
        · exact h
    · rw [if_neg (by have := and_create hc; omega)]
      exact h
  · exact hand _ _ _ fun _ => h
  · exact hand _ _ _ fun _ => h
  · exact hand _ _ _ fun _ => h
  · refine hand _ _ _ fun o => ?_
    cases o.rest <;> exact h
  · refine hand _ _ _ fun o => ?_
    dsimp only
    split <;> exact h
  · refine hand _ _ _ fun o => ?_
    split
    · exact h
    · exact h.set _ _ (fun _ => rfl) (fun _ => rfl)

/-- a call that does not use an open file leaves it as it is -/
theorem mem_opened (c : HCall Nat) (w : World) {h : Nat} {o : Opened} (hc : c.uses ≠ some h) (ho : w.opened[h]? = some o) :
    (Mem.host.exec c w).1.opened[h]? = some o := by
  have add : ∀ p i (w' : World), w'.opened = w.opened → (addHandle p i w').1.opened[h]? = some o := by
    intro p i w' e
    show (w'.opened ++ _)[h]? = _
    rw [e, List.getElem?_append_left (List.getElem?_eq_some_iff.1 ho).1]
    exact ho
  have node : ∀ p f, (onNode p f w).1.opened[h]? = some o := by
    intro p f; unfold onNode; split <;> exact ho
  have hand : ∀ {α : Type} (x : Nat) (bad : α) (f : Opened → World × α), some x ≠ some h →
      (∀ o1, (x ≠ h → (f o1).1.opened[h]? = some o)) → (onHandle x w bad f).1.opened[h]? = some o := by
    intro α x bad f hx hf
    unfold onHandle
    split
    · split
      · exact hf _ fun e => hx (by rw [e])
      · exact ho
    · exact ho
  have set : ∀ x (o1 : Opened), x ≠ h → (setOpened x o1 w).opened[h]? = some o := by
    intro x o1 hx
    unfold setOpened
    dsimp only
    rw [List.getElem?_set_ne hx]
    exact ho
  cases c with
  | lstat p => exact ho
  | stat p => exact ho
  | openFile p f m =>
    show (Mem.openFile p f m w).1.opened[h]? = some o
    unfold Mem.openFile
    split
    · split
      · exact ho
      · exact add _ _ _ (by split <;> rfl)
    · split
      · exact add _ _ _ rfl
      · exact ho
  | mkdir p m =>
    show (Mem.mkdir p m w).1.opened[h]? = some o
    unfold Mem.mkdir
    split <;> exact ho
  | chmod p m => exact node _ _
  | rename p q =>
    show (Mem.rename p q w).1.opened[h]? = some o
    unfold Mem.rename
    split <;> exact ho
  | truncate p n =>
    show (if n.toInt < 0 then _ else _ : World × Option GoString).1.opened[h]? = some o
    split
    · exact ho
    · exact node _ _
  | chtimes p a m => exact node _ _
  | remove p =>
    show (Mem.remove p w).1.opened[h]? = some o
    unfold Mem.remove
    split <;> exact ho
  | close x => exact hand x _ _ hc fun o1 h1 => set _ _ h1
  | sync x => exact hand x _ _ hc fun o1 h1 => ho
  | seek0 x => exact hand x _ _ hc fun o1 h1 => set _ _ h1
  | readdir1 x =>
    refine hand x _ _ hc fun o1 h1 => ?_
    cases o1.rest with
    | nil => exact ho
    | cons => exact set _ _ h1
  | readAt x n off => exact hand x _ _ hc fun o1 h1 => by dsimp only; split <;> exact ho
  | writeAt x b off => exact hand x _ _ hc fun o1 h1 => by split <;> exact ho

theorem memOpen_kept (c : HCall Nat) (h : Nat) (w : World) (hc : c.uses ≠ some h) (ho : memOpen h w) : memOpen h (shortHost.exec c w).1 := by
  rw [short_world]
  obtain ⟨o, h1, h2⟩ := ho
  exact ⟨o, mem_opened c w hc h1, h2⟩

/-- the open files are numbered -/
def memNew : NewFiles shortHost where
  used h w := h < w.opened.length
  fresh := by
    intro p f m w w' h hx
    have add : ∀ p i (w1 : World), w1.opened = w.opened → addHandle p i w1 = (w', .ok h) → ¬ h < w.opened.length ∧ h < w'.opened.length := by
      intro p i w1 e h1
      cases h1
      simp [e]
    have hx : Mem.openFile p f m w = (w', .ok h) := hx
    unfold Mem.openFile at hx
    split at hx
    · split at hx
      · cases hx
      · exact add _ _ _ (by split <;> rfl) hx
    · split at hx
      · exact add _ _ (addNode p { perm := m } w) rfl hx
      · cases hx
  keeps := by
    intro h w c hu
    rw [short_world]
    obtain ⟨o', h1, -⟩ := mem_inos c w (List.getElem?_eq_getElem hu)
    exact (List.getElem?_eq_some_iff.1 h1).1

theorem same_stat {w0 : World} {p : GoString} {i : Nat} {w : World} (hp : (base p).length ≤ 255) (hw : SameAs w0 w) (hi : find p w0 = some i) :
    ∃ st, shortHost.stat p w = (w, .ok st) ∧ shortHost.lstat p w = (w, .ok st) ∧ st.mode = (info p i w0).mode := by
  have h1 : find p w = some i := by rw [← hi]; unfold find; rw [hw.1]
  refine ⟨info p i w, ?_, ?_, ?_⟩
  · simp only [shortHost, if_pos hp, Mem.host, Mem.stat, h1]
  · simp only [shortHost, if_pos hp, Mem.host, Mem.stat, h1]
  · simp only [info, (hw.2 i).1, (hw.2 i).2]

/-- a file in the directory with which the file server has been started -/
theorem same_reach {w0 : World} {root name : GoString} {r i : Nat} {mode : Mode} (hm : modeToUnixFlags mode / 64 % 2 = 0)
    (b0 : (base (placeOf root [])).length ≤ 255) (b1 : (base (placeOf root [name])).length ≤ 255) (f0 : find (placeOf root []) w0 = some r)
    (f1 : find (placeOf root [name]) w0 = some i) (hd : (w0.nodes i).dir = false)
    (hq : isPlain (fileInfoToQID (info (placeOf root [name]) i w0)) = true) : CanReach shortHost root [name] mode isPlain (SameAs w0) memOpen where
  attach w w' r hw h := by
    obtain ⟨st, h1, -, -⟩ := same_stat b0 hw f0
    rw [h1] at h
    cases h
    exact ⟨hw, st, rfl, nofun⟩
  walk ms w w' r hne hpre hw h := by
    have : ms = [name] := by
      obtain ⟨t, ht⟩ := hpre
      match ms, hne with
      | [a], _ => cases t with
        | nil => simpa using ht
        | cons => simp at ht
      | a :: b :: l, _ => simp at ht
    subst this
    obtain ⟨st, -, h1, h2⟩ := same_stat b1 hw f1
    rw [h1] at h
    cases h
    exact ⟨hw, st, rfl, fun _ => by rw [qid_kind h2]; exact hq⟩
  opens w w' r hw h := by
    have h1 : find (placeOf root [name]) w = some i := by
      rw [← f1]
      unfold find
      rw [hw.1]
    have h2 : (w.nodes i).dir = false := by rw [(hw.2 i).1]; exact hd
    have h : Mem.openFile (placeOf root [name]) (modeToUnixFlags mode) 0 w = (w', r) := h
    unfold Mem.openFile at h
    rw [h1] at h
    dsimp only at h
    rw [if_neg (by simp [h2])] at h
    by_cases ht : modeToUnixFlags mode / 512 % 2 = 1
    · rw [if_pos ht] at h
      cases h
      exact ⟨hw.set i (fun n => { n with data := [] }) (fun _ => rfl) (fun _ => rfl), _, rfl, _, List.getElem?_concat_length, rfl⟩
    · rw [if_neg ht] at h
      cases h
      exact ⟨hw, _, rfl, _, List.getElem?_concat_length, rfl⟩

theorem same_canRead {w0 : World} {root : GoString} {path : List GoString} {i : Nat} (h : CanReach shortHost root path 0 isPlain (SameAs w0) memOpen) :
    CanRead shortFiles root path i (SameAs w0) memOpen where
  reach := h
  reads h n off w w' x e hw ho hn hx := by
    obtain ⟨o, h1, h2⟩ := ho
    have hx : Mem.host.readAt h n off w = (w', x, e) := hx
    simp only [Mem.host, onHandle, h1, h2, if_true] at hx
    split at hx
    · rename_i hlt
      cases hx
      exact ⟨hw, ⟨o, h1, h2⟩, fun h => by omega⟩
    · cases hx
      refine ⟨hw, ⟨o, h1, h2⟩, fun _ y => ?_⟩
      split <;> simp

theorem same_canWrite {w0 : World} {root : GoString} {path : List GoString} {i : Nat} (h : CanReach shortHost root path 17 isPlain (SameAs w0) memOpen) :
    CanWrite shortFiles root path i (SameAs w0) memOpen where
  reach := h
  writes h b off w w' k e hw ho hn hx := by
    obtain ⟨o, h1, h2⟩ := ho
    have hx : Mem.host.writeAt h b off w = (w', k, e) := hx
    simp only [Mem.host, onHandle, h1, h2, if_true] at hx
    split at hx
    · rename_i hlt
      cases hx
      exact ⟨hw, ⟨o, h1, h2⟩, fun h => by omega⟩
    · cases hx
      exact ⟨hw.set _ _ (fun _ => rfl) (fun _ => rfl), ⟨o, h1, h2⟩, fun _ => rfl⟩

/-- C104: the hypotheses are met by two clients that work at the same time, for both of them -/
example : ∃ (n : Shop World Nat Got) (ls : List (JobLabel World Nat)),
    soleNames.node (placeOf [47, 120] (demoTasks 0).path) world1 = some 3 ∧ soleNames.node (placeOf [47, 120] (demoTasks 1).path) world1 = some 5 ∧
    (∀ j, j ≠ 0 → (demoTasks j).Writes → shortLinkless.other (placeOf [47, 120] (demoTasks 0).path) (placeOf [47, 120] (demoTasks j).path)) ∧
    (∀ j, j ≠ 1 → (demoTasks j).Writes → shortLinkless.other (placeOf [47, 120] (demoTasks 1).path) (placeOf [47, 120] (demoTasks j).path)) ∧
    (∀ c w, Mild c → SameAs world1 w → SameAs world1 (shortHost.exec c w).1) ∧
    (∀ c h w, c.uses ≠ some h → memOpen h w → memOpen h (shortHost.exec c w).1) ∧ SameAs world1 world1 ∧
    (demoTasks 0).Can shortFiles [47, 120] 3 (SameAs world1) memOpen ∧ (demoTasks 1).Can shortFiles [47, 120] 5 (SameAs world1) memOpen ∧
    (demoTasks 0).Enough (shortFiles.content 3 world1) ∧ (demoTasks 1).Enough (shortFiles.content 5 world1) ∧
    QuietExec shortHost (lit "harvey") (LetAllBe shortLinkless memNew 3 (placeOf [47, 120] (demoTasks 0).path) (SameAs world1) memOpen)
      (Shop.start [47, 120] world1 fun j => (demoTasks j).job) ls n ∧
    QuietExec shortHost (lit "harvey") (LetAllBe shortLinkless memNew 5 (placeOf [47, 120] (demoTasks 1).path) (SameAs world1) memOpen)
      (Shop.start [47, 120] world1 fun j => (demoTasks j).job) ls n ∧
    (∀ l ∈ ls, l.Clean) ∧ n.stage 0 = .next (.ret (.whole [7, 8, 9])) ∧ n.stage 1 = .next (.ret (.whole [5, 6])) := by
  have hu : (lit "harvey").length < 2 ^ 13 := by decide
  have hp : ∀ j, (demoTasks j).job.Proper := fun j => (demoTasks_proper j).job
  obtain ⟨ls1, n1, a, a1, a2, a3⟩ := C98_completes shortHost_short hu [47, 120] world1 _ hp _ [] (.refl _) nofun 0 nofun rfl
    (show (0 : Nat) < 65534 by decide)
  obtain ⟨-, b1, b2⟩ := own_exec (R := fun _ _ => True) (fun _ => trivial) a1 a2
  have b3 := b1 1 (by decide)
  have c1 : ∀ l ∈ ls1, l.Clean := fun l hl => (a2 l hl).fine.1
  obtain ⟨ls2, n2, b, d1, d2, d3⟩ := C98_completes shortHost_short hu [47, 120] world1 _ hp _ ls1 a1 c1 1
    (fun l hl => own_other (by decide) (a2 l hl)) b2 (by rw [b3.1]; exact (show (0 : Nat) < 65534 by decide))
  obtain ⟨-, e1, -⟩ := own_exec (R := fun _ _ => True) (fun _ => trivial) d1 d2
  have own : ∀ l ∈ ls1 ++ ls2, ∃ i, JobLabel.Own i l := by
    intro l hl
    rcases List.mem_append.1 hl with h | h
    · exact ⟨0, a2 l h⟩
    · exact ⟨1, d2 l h⟩
  have v0 : soleNames.node (placeOf [47, 120] (demoTasks 0).path) world1 = some 3 := by decide +kernel
  have v1 : soleNames.node (placeOf [47, 120] (demoTasks 1).path) world1 = some 5 := by decide +kernel
  have o0 : ∀ j, j ≠ 0 → (demoTasks j).Writes → shortLinkless.other (placeOf [47, 120] (demoTasks 0).path) (placeOf [47, 120] (demoTasks j).path) := by
    intro j hj hw
    match j, hj with
    | j + 1, _ => exact hw.elim
  have o1 : ∀ j, j ≠ 1 → (demoTasks j).Writes → shortLinkless.other (placeOf [47, 120] (demoTasks 1).path) (placeOf [47, 120] (demoTasks j).path) := by
    intro j hj hw
    match j, hj with
    | 0, _ => show _ ≠ _; decide +kernel
    | j + 2, _ => exact hw.elim
  have hs : SameAs world1 world1 := ⟨rfl, fun _ => ⟨rfl, rfl⟩⟩
  have k0 : (demoTasks 0).Can shortFiles [47, 120] 3 (SameAs world1) memOpen :=
    same_canWrite (same_reach (r := 1) (i := 3) (by decide) (by decide +kernel) (by decide +kernel) (by decide +kernel) (by decide +kernel) (by decide +kernel) (by decide +kernel))
  have k1 : (demoTasks 1).Can shortFiles [47, 120] 5 (SameAs world1) memOpen :=
    same_canRead (same_reach (r := 1) (i := 5) (by decide) (by decide +kernel) (by decide +kernel) (by decide +kernel) (by decide +kernel) (by decide +kernel) (by decide +kernel))
  have m0 : (demoTasks 0).Enough (shortFiles.content 3 world1) := by show _ < _; decide
  have m1 : (demoTasks 1).Enough (shortFiles.content 5 world1) := by show _ < _ ∧ _ < _; decide +kernel
  have q : ∀ {R}, QuietExec shortHost (lit "harvey") R (Shop.start [47, 120] world1 fun j => (demoTasks j).job) (ls1 ++ ls2) n2 :=
    fun {R} => quiet_own (a1.trans d1) own
  have hl : ∀ l ∈ ls1 ++ ls2, l.Clean := by
    intro l hl
    rcases List.mem_append.1 hl with h | h
    · exact c1 l h
    · exact (d2 l h).fine.1
  have a4 : n2.stage 0 = .next (.ret a) := by rw [(e1 0 (by decide)).2]; exact a3
  have r0 := C104_tasks shortLinkless sole_opens memNew shortHost_short hu [47, 120] world1 demoTasks demoTasks_proper 0 3 v0 o0 (SameAs world1) memOpen
    sameAs_mild memOpen_kept k0 hs m0 n2 _ q hl a a4
  have r1 := C104_tasks shortLinkless sole_opens memNew shortHost_short hu [47, 120] world1 demoTasks demoTasks_proper 1 5 v1 o1 (SameAs world1) memOpen
    sameAs_mild memOpen_kept k1 hs m1 n2 _ q hl b d3
  refine ⟨n2, ls1 ++ ls2, v0, v1, o0, o1, sameAs_mild, memOpen_kept, hs, k0, k1, m0, m1, q, q, hl, ?_, ?_⟩
  · rw [a4, r0.1]; rfl
  · rw [d3, r1.1]
    have : (demoTasks 1).goal (shortFiles.content 5 world1) = [5, 6] := by decide +kernel
    rw [this]

theorem same_names {c : HCall Nat} {w : World} (hc : ¬ c.Modifies) : (shortHost.exec c w).1.names = w.names ∧ (shortHost.exec c w).1.nodes = w.nodes := by
  rw [short_world]
  have hand : ∀ {α : Type} (x : Nat) (bad : α) (f : Opened → World × α), (∀ o, (f o).1.names = w.names ∧ (f o).1.nodes = w.nodes) →
      (onHandle x w bad f).1.names = w.names ∧ (onHandle x w bad f).1.nodes = w.nodes := by
    intro α x bad f hf
    unfold onHandle
    split
    · split
      · exact hf _
      · exact ⟨rfl, rfl⟩
    · exact ⟨rfl, rfl⟩
  cases c <;> first | exact absurd trivial hc | exact ⟨rfl, rfl⟩ | skip
  · rename_i p f m
    have hc : ¬ (f &&& O_CREATE ≠ 0 ∨ f &&& O_TRUNC ≠ 0) := hc
    have h1 := and_create (f := f) (Classical.byContradiction fun h => hc (.inl h))
    have h2 := and_trunc (f := f) (Classical.byContradiction fun h => hc (.inr h))
    show (Mem.openFile p f m w).1.names = w.names ∧ (Mem.openFile p f m w).1.nodes = w.nodes
    unfold Mem.openFile
    split
    · split
      · exact ⟨rfl, rfl⟩
      · rw [if_neg (by omega)]; exact ⟨rfl, rfl⟩
    · rw [if_neg (by omega)]; exact ⟨rfl, rfl⟩
  · exact hand _ _ _ fun _ => ⟨rfl, rfl⟩
  · exact hand _ _ _ fun _ => ⟨rfl, rfl⟩
  · exact hand _ _ _ fun _ => ⟨rfl, rfl⟩
  · refine hand _ _ _ fun o => ?_
    cases o.rest <;> exact ⟨rfl, rfl⟩
  · refine hand _ _ _ fun o => ?_
    dsimp only
    split <;> exact ⟨rfl, rfl⟩

theorem memEntries_kept (p : GoString) (c : HCall Nat) (w : World) (hc : ¬ c.Modifies) : memEntries p (shortHost.exec c w).1 = memEntries p w := by
  obtain ⟨h1, h2⟩ := same_names (w := w) hc
  unfold memEntries list info find
  rw [h1, h2]

theorem sameAs_looks {w0 : World} (c : HCall Nat) (w : World) (hc : ¬ c.Modifies) (h : SameAs w0 w) : SameAs w0 (shortHost.exec c w).1 := by
  obtain ⟨h1, h2⟩ := same_names (w := w) hc
  unfold SameAs
  rw [h1, h2]
  exact h

theorem shortDirs_kept (c : HCall Nat) (h : Nat) (l : List FileInfo) (w : World) (hc : c.uses ≠ some h) (hl : shortDirs.listing h w = some l) :
    shortDirs.listing h (shortHost.exec c w).1 = some l ∧ shortDirs.rest h (shortHost.exec c w).1 = shortDirs.rest h w := by
  rw [short_world]
  change memListing h w = some l at hl
  show memListing h _ = some l ∧ memRest h _ = memRest h w
  unfold memListing at hl ⊢
  unfold memRest
  cases ho : w.opened[h]? with
  | none => rw [ho] at hl; cases hl
  | some o =>
    rw [mem_opened c w hc ho]
    rw [ho] at hl
    exact ⟨hl, rfl⟩

/-- client 0 lists the directory that is served, all others read "f" -/
def lookJobs : Nat → Job Got
  | 0 => lister [] 1000 10
  | _ + 1 => fetch [lit "f"] 2 10

theorem look_proper (i : Nat) : (lookJobs i).Proper := by
  match i with
  | 0 => exact lister_proper (by unfold GoodPath; decide) (by decide) 10
  | _ + 1 => exact fetch_proper (by unfold GoodPath; decide) (by decide) 10

theorem fetch_looks (path : List GoString) (c : Count) (n : Nat) : (fetch path c n).All ReadOnly := by
  refine Job.ok_all trivial fun _ => Job.ok_all trivial fun _ => Job.ok_all trivial fun r => ?_
  cases r <;> first | trivial | skip
  dsimp only
  split
  · refine Job.ok_all (show (0 : Mode) &&& OTRUNC = 0 by decide) fun r => ?_
    cases r <;> first | trivial | skip
    dsimp only
    split
    · have : ∀ off acc, (readAll 1 c n off acc).All ReadOnly := by
        induction n with
        | zero => exact fun _ _ => trivial
        | succ n ih =>
          intro off acc
          refine Job.ok_all trivial fun r => ?_
          cases r <;> first | trivial | skip
          dsimp only
          split
          · exact Job.ok_all trivial fun _ => trivial
          · exact ih _ _
      exact this _ _
    · trivial
  · trivial

/-- C104: the hypotheses are met by a client that lists a directory with two entries, while another one reads a file -/
example : ∃ (n : Shop World Nat Got) (ls : List (JobLabel World Nat)) (a b : Got) (l : List FileInfo),
    (∀ j, j ≠ 0 → (lookJobs j).All ReadOnly) ∧ memEntries (placeOf [47, 120] []) world0 = some l ∧ l.length = 2 ∧
    (∀ c w, ¬ c.Modifies → memEntries (placeOf [47, 120] []) (shortHost.exec c w).1 = memEntries (placeOf [47, 120] []) w) ∧
    (∀ c h l w, c.uses ≠ some h → shortDirs.listing h w = some l →
      shortDirs.listing h (shortHost.exec c w).1 = some l ∧ shortDirs.rest h (shortHost.exec c w).1 = shortDirs.rest h w) ∧
    (∀ c w, ¬ c.Modifies → sameNames w → sameNames (shortHost.exec c w).1) ∧
    (∀ c h w, c.uses ≠ some h → memOpen h w → memOpen h (shortHost.exec c w).1) ∧
    CanList shortDirs [47, 120] [] sameNames memOpen ∧ sameNames world0 ∧
    (∀ fi ∈ l, ((record (lit "harvey") fi).length : Int) ≤ (1000 : Int32).toInt) ∧ (l.map (record (lit "harvey"))).flatten.length < 2 ^ 64 ∧
    QuietExec shortHost (lit "harvey") (fun w w' => (∀ h, memNew.used h w → memNew.used h w') ∧
      LeavesDir shortDirs memEntries (placeOf [47, 120] []) sameNames memOpen w w') (Shop.start [47, 120] world0 lookJobs) ls n ∧
    (∀ l ∈ ls, l.Clean) ∧ n.stage 0 = .next (.ret a) ∧ n.stage 1 = .next (.ret b) := by
  have hu : (lit "harvey").length < 2 ^ 13 := by decide
  obtain ⟨ls1, n1, a, a1, a2, a3⟩ := C98_completes shortHost_short hu [47, 120] world0 _ look_proper _ [] (.refl _) nofun 0 nofun rfl
    (show (0 : Nat) < 65534 by decide)
  obtain ⟨-, b1, b2⟩ := own_exec (R := fun _ _ => True) (fun _ => trivial) a1 a2
  have b3 := b1 1 (by decide)
  have c1 : ∀ l ∈ ls1, l.Clean := fun l hl => (a2 l hl).fine.1
  obtain ⟨ls2, n2, b, d1, d2, d3⟩ := C98_completes shortHost_short hu [47, 120] world0 _ look_proper _ ls1 a1 c1 1
    (fun l hl => own_other (by decide) (a2 l hl)) b2 (by rw [b3.1]; exact (show (0 : Nat) < 65534 by decide))
  obtain ⟨-, e1, -⟩ := own_exec (R := fun _ _ => True) (fun _ => trivial) d1 d2
  have own : ∀ l ∈ ls1 ++ ls2, ∃ i, JobLabel.Own i l := by
    intro l hl
    rcases List.mem_append.1 hl with h | h
    · exact ⟨0, a2 l h⟩
    · exact ⟨1, d2 l h⟩
  refine ⟨n2, ls1 ++ ls2, a, b, _, fun j hj => ?_, show memEntries (placeOf [47, 120] []) world0 = some (list [47, 120] world0) from by decide +kernel, by decide +kernel,
    memEntries_kept _, shortDirs_kept, fun c w h h' => sameAs_looks (w0 := world0) c w h h', memOpen_kept, mem_canList, ⟨rfl, fun _ => ⟨rfl, rfl⟩⟩, by decide +kernel, by decide +kernel,
    quiet_own (a1.trans d1) own, fun l hl => ?_, ?_, d3⟩
  · match j, hj with
    | j + 1, _ => exact fetch_looks _ _ _
  · rcases List.mem_append.1 hl with h | h
    · exact c1 l h
    · exact (d2 l h).fine.1
  · rw [(e1 0 (by decide)).2]; exact a3

end

end Ninep.Client
