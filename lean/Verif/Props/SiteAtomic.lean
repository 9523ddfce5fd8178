import Verif.Props.Apart
import Verif.Props.Transfer

set_option linter.unusedSimpArgs false
set_option linter.unusedVariables false

/-
The clients and the program as a whole, over byte streams that may break (C96): when the requests of its clients are
atomic (C94).
-/

namespace Ninep.Client
open Spec Ufs
variable {ω H α : Type}

/-- The calls that have returned at `n` and at `n'` are explained by an order that respects real time: carried out on the
spot in the order `h ++ t`, with nothing else happening in between, each of them gives the caller what it was given; whatever has returned at `n` is in `h`, and
whatever is in `h` was called before `n`.  The order contains only calls that were made, each of them once, and keeps the
calls of each client in the order in which their requests were written.  When no
goroutine is at work at `n'`, the order leads to the file servers and to the world that there are. -/
def SiteInOneOrder (host : Host ω H) (user root : GoString) (w : ω) (n n' : Site ω H) : Prop :=
  ∃ h t o w1 o' w1', Direct (ufs host user) (fun _ => newObj root) w [] h o w1 ∧ Direct (ufs host user) o w1 [] t o' w1' ∧
    ((h ++ t).map fun e => (e.client, e.call)).Nodup ∧
    (∀ i, ((h ++ t).filter fun e => e.client = i).map (fun e => e.call) <+: (n'.link i).w.cl.written.map Prod.fst) ∧
    (∀ e ∈ h, (n.link e.client).w.cl.phase e.call ≠ .idle) ∧
    (∀ e ∈ h ++ t, (n'.link e.client).w.cl.phase e.call ≠ .idle ∧ (n'.link e.client).w.cl.msg e.call = some e.msg) ∧
    (∀ i c b, (n.link i).w.cl.phase c = .done b → ∃ e ∈ h, e.client = i ∧ e.call = c ∧ ∀ spare, callT e.msg spare b = asCall e.msg e.out) ∧
    (∀ i c b, (n'.link i).w.cl.phase c = .done b → ∃ e ∈ h ++ t, e.client = i ∧ e.call = c ∧ ∀ spare, callT e.msg spare b = asCall e.msg e.out) ∧
    (∀ i, (n'.link i).running = none → o' i = (n'.link i).w.srv.ns) ∧
    ((∀ i, (n'.link i).running = none) → w1' = n'.world)

theorem InOneOrder.site {host : Host ω H} {user root : GoString} {w : ω} {n n' : Site ω H} {ls ls' : List (BLabel ω H)}
    (h : InOneOrder host user root w n.busy n'.busy ls ls') : SiteInOneOrder host user root w n n' := by
  obtain ⟨h, t, o, w1, o', w1', a1, a2, a3, a3', a4, a5, a6, a7, a8, a9⟩ := h
  refine ⟨h, t, o, w1, o', w1', a1, a2, a3, a3', a4, a5, a6, a7, a8, fun hn => a9 ?_⟩
  rintro i ⟨-, x, k, hr⟩
  have := hn i
  simp only [Site.busy] at hr
  rw [hr] at this
  cases this

theorem mem_outside {ls : List (BLabel ω H)} {ss : List (SiteLabel ω H)} (h : ls.flatMap BLabel.outside = ss.flatMap SiteLabel.outside) :
    (∀ i e, BLabel.call i e ∈ ls → SiteLabel.call i e ∈ ss) ∧ ∀ w, BLabel.other w ∈ ls → SiteLabel.other w ∈ ss := by
  have key : ∀ l ∈ ls, ∀ x ∈ l.outside, ∃ s ∈ ss, x ∈ s.outside := by
    intro l hl x hx
    have : x ∈ ls.flatMap BLabel.outside := List.mem_flatMap.2 ⟨l, hl, hx⟩
    rw [h] at this
    obtain ⟨s, hs, hx'⟩ := List.mem_flatMap.1 this
    exact ⟨s, hs, hx'⟩
  constructor
  · intro i e hl
    obtain ⟨s, hs, hx⟩ := key _ hl (.call i e) (by simp [BLabel.outside])
    cases s <;> simp [SiteLabel.outside] at hx
    obtain ⟨rfl, rfl⟩ := hx
    exact hs
  · intro w hl
    obtain ⟨s, hs, hx⟩ := key _ hl (.other w) (by simp [BLabel.outside])
    cases s <;> simp [SiteLabel.outside] at hx
    subst hx
    exact hs

/-- **C94, partial, over byte streams** Clients and program as in C96, with connections that may break between packets:
the requests of clients that keep out of each other's way are atomic.  Each client has its own kind of calls of the
operating system, those of different clients commute in the worlds that can be reached, and no other process interferes. -/
theorem C94_site_sorted_partial {host : Host ω H} {ok : ω → Prop} (hok : Kept host ok) (hh : host.Short) {user : GoString} (hu : user.length < 2 ^ 13)
    (root : GoString) (w : ω) (hw : ok w)
    (kind : Nat → HCall H → Prop) (hk : ∀ i j x y, i ≠ j → kind i x → kind j y → Commute host ok x y)
    (n n' : Site ω H) (ls ls' : List (SiteLabel ω H)) (he : SiteExec host user (Site.start root w) ls n) (he' : SiteExec host user n ls' n')
    (hf : n'.Fine) (hl : ∀ l ∈ ls ++ ls', l.Clean)
    (halone : ∀ v, SiteLabel.other v ∉ ls ++ ls') (hkind : ∀ i e, SiteLabel.call i e ∈ ls ++ ls' → kind i e.1) :
    SiteInOneOrder host user root w n n' := by
  have hi := siteInv_start (H := H) user root w
  have hb := site_start_busy (H := H) root w
  have hfr := later_exec (fun i c hc => (hi.inv.inv i).idle c hc) he
  have hfn : n.Fine := hf.before (later_exec hfr.1 he').2
  obtain ⟨bl, h0, cur0, g1, g2, g3⟩ := site_exec hh hu hi he hfn (fun l hl' => hl l (by simp [hl']))
  obtain ⟨bl', h1, cur1, k1, k2, k3⟩ := site_exec hh hu g3 he' hf (fun l hl' => hl l (by simp [hl']))
  rw [hb] at g1
  obtain ⟨m1, m2⟩ := mem_outside (show (bl ++ bl').flatMap BLabel.outside = (ls ++ ls').flatMap SiteLabel.outside by simp [g2, k2])
  exact (C94_sorted_partial hok hh hu root w hw kind hk n.busy n'.busy bl bl' g1 k1
    ⟨fun v hv => halone v (m2 v hv), fun i e he => hkind i e (m1 i e he)⟩ hf.bfit).site

/-- **C94, partial, over byte streams** The requests of clients that only look are atomic (`Looks`: version, attach, flush,
walk and stat), however they overlap, if no other process interferes. -/
theorem C94_site_looks_partial {host : Host ω H} (hh : host.Short) (hq : host.Quiet) {user : GoString} (hu : user.length < 2 ^ 13)
    (root : GoString) (w : ω) (n n' : Site ω H) (ls ls' : List (SiteLabel ω H)) (he : SiteExec host user (Site.start root w) ls n)
    (he' : SiteExec host user n ls' n') (hf : n'.Fine) (hl : ∀ l ∈ ls ++ ls', l.Clean) (halone : ∀ v, SiteLabel.other v ∉ ls ++ ls')
    (hlook : ∀ i c m, (n'.link i).w.cl.msg c = some m → Looks m) : SiteInOneOrder host user root w n n' := by
  have hi := siteInv_start (H := H) user root w
  have hb := site_start_busy (H := H) root w
  have hfr := later_exec (fun i c hc => (hi.inv.inv i).idle c hc) he
  have hfn : n.Fine := hf.before (later_exec hfr.1 he').2
  obtain ⟨bl, h0, cur0, g1, g2, g3⟩ := site_exec hh hu hi he hfn (fun l hl' => hl l (by simp [hl']))
  obtain ⟨bl', h1, cur1, k1, k2, k3⟩ := site_exec hh hu g3 he' hf (fun l hl' => hl l (by simp [hl']))
  rw [hb] at g1
  obtain ⟨m1, m2⟩ := mem_outside (show (bl ++ bl').flatMap BLabel.outside = (ls ++ ls').flatMap SiteLabel.outside by simp [g2, k2])
  exact (C94_looks_partial hh hq hu root w n.busy n'.busy bl bl' g1 k1 (fun v hv => halone v (m2 v hv)) hf.bfit hlook).site

/-! ### programs -/

/-- The program `j0` is at `st` when `ys` are its calls that have taken effect, with their outcomes.  The call that it waits
for may be among them. -/
def JobAt.Told (j0 : Job α) (ys : List (TMsg × CallRes RMsg)) : JobAt α → Prop
  | .next j => j0.After ys j
  | .waits _ m k => j0.After ys (.call m k) ∨ ∃ zs out, ys = zs ++ [(m, asCall m out)] ∧ j0.After zs (.call m k)

/-- the calls of client `i` and their outcomes -/
def outcomes (i : Nat) (h : List Made) : List (TMsg × CallRes RMsg) := (h.filter fun e => e.client = i).map fun e => (e.msg, asCall e.msg e.out)

/-- There is one order of the calls of all programs, in which the calls of each program are in the order of the program:
carried out on the spot in this order, with nothing else happening in between, they have the outcomes that have brought
each program to where it is.  The order respects real time: `h` explains where the programs are at `n`, and `h ++ t` where
they are later, at `n'`.  A program that is between two calls has the file server that the order leads to, and when all
programs are, the world is the one that the order leads to. -/
def JobsInOneOrder (host : Host ω H) (user root : GoString) (w : ω) (jobs : Nat → Job α) (n n' : Shop ω H α) : Prop :=
  ∃ h t o w1 o' w1', Direct (ufs host user) (fun _ => newObj root) w [] h o w1 ∧ Direct (ufs host user) o w1 [] t o' w1' ∧
    (∀ i, (n.stage i).Told (jobs i) (outcomes i h)) ∧ (∀ i, (n'.stage i).Told (jobs i) (outcomes i (h ++ t))) ∧
    (∀ i j, n'.stage i = .next j → o' i = (n'.site.link i).w.srv.ns) ∧ ((∀ i, ∃ j, n'.stage i = .next j) → w1' = n'.site.world)

/-- where a program is, from the calls of its client that have taken effect -/
theorem told {j0 : Job α} {st : JobAt α} {s : State} {xs : List (Nat × TMsg × CallRes RMsg)} (hx : JobInv j0 st s xs) {l : List Made} {W : List Nat}
    (h1 : l.map Made.call <+: W) (h2 : s.written.map Prod.fst <+: W) (hnd : (l.map Made.call).Nodup) (hmade : ∀ e ∈ l, s.phase e.call ≠ .idle)
    (hmsg : ∀ e ∈ l, ∀ m, s.msg e.call = some m → e.msg = m)
    (hdone : ∀ c b, s.phase c = .done b → ∃ e ∈ l, e.call = c ∧ ∀ spare, callT e.msg spare b = asCall e.msg e.out) :
    st.Told j0 (l.map fun e => (e.msg, asCall e.msg e.out)) := by
  have hall : ∀ c ∈ xs.map Prod.fst, c ∈ l.map Made.call := by
    intro c hc
    obtain ⟨x, hxm, rfl⟩ := List.mem_map.1 hc
    obtain ⟨-, b, sp, hb, -⟩ := hx.done x hxm
    obtain ⟨e, he, hec, -⟩ := hdone _ _ hb
    exact List.mem_map.2 ⟨e, he, hec⟩
  have hpre : xs.map Prod.fst <+: l.map Made.call := by
    rcases List.prefix_or_prefix_of_prefix (hx.first.trans h2) h1 with h | ⟨z, hz⟩
    · exact h
    · cases z with
      | nil => rw [List.append_nil] at hz; rw [hz]; exact List.prefix_refl _
      | cons c z =>
        have hc := hall c (by rw [← hz]; simp)
        have := (List.nodup_append.1 hx.nodup).1
        rw [← hz, List.nodup_append] at this
        exact absurd rfl (this.2.2 c hc c (by simp))
  obtain ⟨z, hz⟩ := hpre
  obtain ⟨l1, l2, rfl, e1, e2⟩ := List.map_eq_append_iff.1 hz.symm
  have hl1 : l1.map (fun e => (e.msg, asCall e.msg e.out)) = xs.map Prod.snd := by
    refine pairs_eq e1 fun e he x hxm hex => ?_
    obtain ⟨hm, b, sp, hb, hr⟩ := hx.done x hxm
    have hme := hmsg e (by simp [he]) x.2.1 (by rw [hex]; exact hm)
    obtain ⟨e', he', hec, hres⟩ := hdone _ _ hb
    have : e' = e := nodup_inj hnd he' (by simp [he]) (hec.trans hex.symm)
    subst this
    exact Prod.ext hme (by dsimp only; rw [hr, ← hme, hres])
  have hz2 : ∀ e ∈ l2, e.call ∈ st.pend := by
    intro e he
    rcases List.mem_append.1 ((hx.made e.call).1 (hmade e (by simp [he]))) with h | h
    · rw [List.map_append, e1, List.nodup_append] at hnd
      exact absurd rfl (hnd.2.2 _ h e.call (List.mem_map.2 ⟨e, he, rfl⟩))
    · exact h
  rw [List.map_append, hl1]
  have haf := hx.after
  cases st with
  | next j =>
    cases l2 with
    | nil => simpa [JobAt.Told, JobAt.left] using haf
    | cons e l2 => exact absurd (hz2 e (by simp)) (by simp [JobAt.pend])
  | waits c m k =>
    match l2, hz2, hnd with
    | [], _, _ => exact .inl (by simpa [JobAt.left] using haf)
    | [e], hz2, _ =>
      have hec : e.call = c := by simpa [JobAt.pend] using hz2 e (by simp)
      have hm := hmsg e (by simp) m (by rw [hec]; exact hx.waits c m k rfl)
      refine .inr ⟨_, e.out, ?_, haf⟩
      rw [List.map_singleton, hm]
    | e :: e' :: l2, hz2, hnd =>
      have hec : e.call = c := by simpa [JobAt.pend] using hz2 e (by simp)
      have hec' : e'.call = c := by simpa [JobAt.pend] using hz2 e' (by simp)
      rw [List.map_append, List.nodup_append] at hnd
      have := hnd.2.1
      simp [hec, hec'] at this

theorem filter_nodup {h : List Made} (hnd : (h.map fun e => (e.client, e.call)).Nodup) (i : Nat) : ((h.filter fun e => e.client = i).map Made.call).Nodup := by
  have h1 : ((h.filter fun e => e.client = i).map fun e => (e.client, e.call)).Nodup := hnd.sublist (List.filter_sublist.map _)
  have h2 : (h.filter fun e => e.client = i).map (fun e => (e.client, e.call)) = ((h.filter fun e => e.client = i).map Made.call).map fun c => (i, c) := by
    rw [List.map_map]
    refine List.map_congr_left fun e he => ?_
    have := (List.mem_filter.1 he).2
    simp only [decide_eq_true_eq] at this
    simp [this]
  rw [h2] at h1
  exact List.Pairwise.of_map _ (fun a b hab heq => hab (by rw [heq])) h1

theorem SiteInOneOrder.jobs {host : Host ω H} (hh : host.Short) {user : GoString} (hu : user.length < 2 ^ 13) {root : GoString} {w : ω}
    {jobs : Nat → Job α} (hj : ∀ i, (jobs i).Proper) {n n' : Shop ω H α} {ls ls' : List (JobLabel ω H)}
    (he : JobExec host user (Shop.start root w jobs) ls n) (he' : JobExec host user n ls' n') (hl : ∀ l ∈ ls ++ ls', l.Clean)
    (h : SiteInOneOrder host user root w n.site n'.site) (hlater : ∀ i, Later (n.site.link i).w.cl (n'.site.link i).w.cl) :
    JobsInOneOrder host user root w jobs n n' := by
  obtain ⟨h, t, o, w1, o', w1', a1, a2, a3, a4, a5, a6, a7, a8, a9, a10⟩ := h
  obtain ⟨-, -, -, g⟩ := job_exec hh hu hj he (fun l hl' => hl l (by simp [hl']))
  obtain ⟨s1, s2, s3, g'⟩ := job_exec hh hu hj (he.trans he') hl
  obtain ⟨bls, hd, cur, -, hinv⟩ := site_reached hh hu s1 s2 s3
  have hidle : ∀ i j, n'.stage i = .next j → (n'.site.link i).running = none := by
    intro i j hst
    obtain ⟨xs, hx⟩ := g' i
    rw [hst] at hx
    exact (next_idle hinv hx).2.2
  refine ⟨h, t, o, w1, o', w1', a1, a2, fun i => ?_, fun i => ?_, fun i j hst => a9 i (hidle i j hst), fun hn => a10 fun i => ?_⟩
  · obtain ⟨xs, hx⟩ := g i
    have hnd : (h.map fun e => (e.client, e.call)).Nodup := by rw [List.map_append, List.nodup_append] at a3; exact a3.1
    refine told (W := (n'.site.link i).w.cl.written.map Prod.fst) hx ?_ ?_ (filter_nodup hnd i) ?_ ?_ ?_
    · exact .trans (by rw [List.filter_append, List.map_append]; exact List.prefix_append _ _) (a4 i)
    · obtain ⟨z, hz⟩ := (hlater i).written
      exact ⟨z.map Prod.fst, by rw [← List.map_append, hz]⟩
    · intro e hem
      obtain ⟨h1, h2⟩ := List.mem_filter.1 hem
      simp only [decide_eq_true_eq] at h2
      subst h2
      exact a5 e h1
    · intro e hem m hm
      obtain ⟨h1, h2⟩ := List.mem_filter.1 hem
      simp only [decide_eq_true_eq] at h2
      subst h2
      have h3 := (a6 e (by simp [h1])).2
      rw [(hlater _).msg _ _ hm] at h3
      exact (Option.some.inj h3).symm
    · intro c b hc
      obtain ⟨e, h1, h2, h3, h4⟩ := a7 i c b hc
      exact ⟨e, List.mem_filter.2 ⟨h1, by simp [h2]⟩, h3, h4⟩
  · obtain ⟨xs, hx⟩ := g' i
    refine told (W := (n'.site.link i).w.cl.written.map Prod.fst) hx (a4 i) (List.prefix_refl _) (filter_nodup a3 i) ?_ ?_ ?_
    · intro e hem
      obtain ⟨h1, h2⟩ := List.mem_filter.1 hem
      simp only [decide_eq_true_eq] at h2
      subst h2
      exact (a6 e h1).1
    · intro e hem m hm
      obtain ⟨h1, h2⟩ := List.mem_filter.1 hem
      simp only [decide_eq_true_eq] at h2
      subst h2
      have h3 := (a6 e h1).2
      rw [hm] at h3
      exact (Option.some.inj h3).symm
    · intro c b hc
      obtain ⟨e, h1, h2, h3, h4⟩ := a8 i c b hc
      exact ⟨e, List.mem_filter.2 ⟨h1, by simp [h2]⟩, h3, h4⟩
  · obtain ⟨j, hst⟩ := hn i
    exact hidle i j hst

theorem JobExec.sites {host : Host ω H} {user : GoString} {n n' : Shop ω H α} {ls : List (JobLabel ω H)} (he : JobExec host user n ls n') :
    SiteExec host user n.site (ls.flatMap JobLabel.sites) n'.site := by
  induction he with
  | refl => exact .refl _
  | step _ hs ih =>
    cases hs with
    | site _ l s' hne hst => simpa [List.flatMap_append, JobLabel.sites] using SiteExec.step ih hst
    | make _ i c m k s' hstage hc hst hm => simpa [List.flatMap_append, JobLabel.sites] using SiteExec.step ih hst
    | get _ i c m k b spare hstage hr hb => simpa [List.flatMap_append, JobLabel.sites] using ih

/-- the calls of a client are those of its program -/
theorem job_messages {j0 : Job α} {st : JobAt α} {s : State} {xs : List (Nat × TMsg × CallRes RMsg)} (hx : JobInv j0 st s xs) (hf : Fresh s)
    {P : TMsg → Prop} (hP : j0.All P) (c : Nat) (m : TMsg) (hm : s.msg c = some m) : P m := by
  obtain ⟨ha, hb⟩ := hx.after.all hP
  have hc := (hx.made c).1 fun he => by rw [hf c he] at hm; cases hm
  rcases List.mem_append.1 hc with hc | hc
  · obtain ⟨x, hx', rfl⟩ := List.mem_map.1 hc
    have := (hx.done x hx').1
    rw [hm] at this
    cases this
    exact hb x.2 (List.mem_map.2 ⟨x, hx', rfl⟩)
  · cases st with
    | next => cases hc
    | waits d m' k =>
      cases List.mem_singleton.1 hc
      have := hx.waits _ _ _ rfl
      rw [hm] at this
      cases this
      exact ha.1

/-- **C94, partial, for programs** Programs that only look (version, attach, flush, walk and stat), each with a client of
its own, behave as if their calls were carried out one at a time, if no other process interferes. -/
theorem C94_programs_look_partial {host : Host ω H} (hh : host.Short) (hq : host.Quiet) {user : GoString} (hu : user.length < 2 ^ 13) (root : GoString)
    (w : ω) (jobs : Nat → Job α) (hj : ∀ i, (jobs i).Proper) (hlook : ∀ i, (jobs i).All Looks) (n n' : Shop ω H α) (ls ls' : List (JobLabel ω H))
    (he : JobExec host user (Shop.start root w jobs) ls n) (he' : JobExec host user n ls' n') (hl : ∀ l ∈ ls ++ ls', l.Clean)
    (halone : ∀ v, JobLabel.site (.other v) ∉ ls ++ ls') : JobsInOneOrder host user root w jobs n n' := by
  have hfr := later_exec (host := host) (user := user) (n := Site.start (H := H) root w) (fun _ _ _ => rfl) he.sites
  have hla := later_exec hfr.1 he'.sites
  obtain ⟨s1, s2, s3, g'⟩ := job_exec hh hu hj (he.trans he') hl
  refine SiteInOneOrder.jobs hh hu hj he he' hl ?_ hla.2
  rw [List.flatMap_append] at s3
  refine C94_site_looks_partial hh hq hu root w n.site n'.site _ _ he.sites he'.sites s2 s3 ?_ ?_
  · intro v hv
    rw [← List.flatMap_append] at hv
    obtain ⟨l, h1, h2⟩ := List.mem_flatMap.1 hv
    cases l <;> simp [JobLabel.sites] at h2
    subst h2
    exact halone v h1
  · intro i c m hm
    obtain ⟨xs, hx⟩ := g' i
    exact job_messages hx (hla.1 i) (hlook i) c m hm

/-- **C94, partial, for programs** Programs that keep out of each other's way, each with a client of its own, behave as if
their calls were carried out one at a time: the calls of the operating system that are made for different programs
commute in the worlds that can be reached, and no other process interferes. -/
theorem C94_programs_partial {host : Host ω H} {ok : ω → Prop} (hok : Kept host ok) (hh : host.Short) {user : GoString} (hu : user.length < 2 ^ 13)
    (root : GoString) (w : ω) (hw : ok w) (kind : Nat → HCall H → Prop) (hk : ∀ i j x y, i ≠ j → kind i x → kind j y → Commute host ok x y)
    (jobs : Nat → Job α) (hj : ∀ i, (jobs i).Proper) (n n' : Shop ω H α) (ls ls' : List (JobLabel ω H))
    (he : JobExec host user (Shop.start root w jobs) ls n) (he' : JobExec host user n ls' n') (hl : ∀ l ∈ ls ++ ls', l.Clean)
    (halone : ∀ v, JobLabel.site (.other v) ∉ ls ++ ls') (hkind : ∀ i e, JobLabel.site (.call i e) ∈ ls ++ ls' → kind i e.1) :
    JobsInOneOrder host user root w jobs n n' := by
  have hfr := later_exec (host := host) (user := user) (n := Site.start (H := H) root w) (fun _ _ _ => rfl) he.sites
  have hla := later_exec hfr.1 he'.sites
  obtain ⟨s1, s2, s3, -⟩ := job_exec hh hu hj (he.trans he') hl
  refine SiteInOneOrder.jobs hh hu hj he he' hl ?_ hla.2
  rw [List.flatMap_append] at s3
  refine C94_site_sorted_partial hok hh hu root w hw kind hk n.site n'.site _ _ he.sites he'.sites s2 s3 ?_ ?_
  · intro v hv
    rw [← List.flatMap_append] at hv
    obtain ⟨l, h1, h2⟩ := List.mem_flatMap.1 hv
    cases l <;> simp [JobLabel.sites] at h2
    subst h2
    exact halone v h1
  · intro i e hv
    rw [← List.flatMap_append] at hv
    obtain ⟨l, h1, h2⟩ := List.mem_flatMap.1 hv
    cases l <;> simp [JobLabel.sites] at h2
    subst h2
    exact hkind i e h1

/-! an example: the programs of two clients ask for the status of a file -/

/-- attach to a directory, ask for the status of the file `f` in it, and return how long the answer is -/
def lookF : Job (Option Nat) :=
  .call (.version ⟨8192, lit "9P2000"⟩) fun _ =>
  .call (.attach ⟨0, NOFID, [], []⟩) fun _ =>
  .call (.walk ⟨0, 1, [lit "f"]⟩) fun _ =>
  .call (.stat ⟨1⟩) fun r =>
  .ret (match r with
    | .ret (.stat p) none => some p.B.length
    | _ => none)

theorem lookF_proper : lookF.Proper := by
  have e1 : (lit "9P2000").length = 6 := by decide
  have e2 : (lit "f").length = 1 := by decide
  refine ⟨⟨_, rfl⟩, ⟨?_, ?_, short_packet (by decide)⟩, fun _ => ⟨⟨trivial, ?_, short_packet (by decide)⟩, fun _ => ⟨⟨?_, ?_, short_packet (by decide)⟩,
    fun _ => ⟨⟨trivial, trivial, short_packet (by decide)⟩, fun _ => trivial⟩⟩⟩⟩ <;>
    simp [Ordinary, TMsg.Fits, e1, e2] <;> decide

/-- every client has the program `lookF`; client 0 comes to its end, and then client 1 -/
example : ∃ (n n' : Shop Mem.World Nat (Option Nat)) (ls ls' : List (JobLabel Mem.World Nat)) (a a' : Option Nat),
    JobExec Mem.shortHost (lit "harvey") (Shop.start [47, 120] Mem.world0 fun _ => lookF) ls n ∧ JobExec Mem.shortHost (lit "harvey") n ls' n' ∧
    (∀ i : Nat, ((fun _ => lookF) i).All Looks) ∧ (∀ l ∈ ls ++ ls', l.Clean) ∧ (∀ v, JobLabel.site (.other v) ∉ ls ++ ls') ∧
    n.stage 0 = .next (.ret a) ∧ n'.stage 1 = .next (.ret a') ∧
    JobsInOneOrder Mem.shortHost (lit "harvey") [47, 120] Mem.world0 (fun _ => lookF) n n' := by
  have hu : (lit "harvey").length < 2 ^ 13 := by decide
  have hj : ∀ i : Nat, ((fun _ => lookF) i).Proper := fun _ => lookF_proper
  obtain ⟨ls1, n1, a, a1, a2, a3⟩ := C98_completes Mem.shortHost_short hu [47, 120] Mem.world0 (fun _ => lookF) hj _ [] (.refl _) nofun 0 nofun rfl
    (show (0 : Nat) < 65534 by decide)
  obtain ⟨-, b1, b2⟩ := own_exec (R := fun _ _ => True) (fun _ => trivial) a1 a2
  have b3 := b1 1 (by decide)
  have c1 : ∀ l ∈ ls1, l.Clean := fun l hl => (a2 l hl).fine.1
  obtain ⟨ls2, n2, a', d1, d2, d3⟩ := C98_completes Mem.shortHost_short hu [47, 120] Mem.world0 (fun _ => lookF) hj _ ls1 a1 c1 1
    (fun l hl => own_other (by decide) (a2 l hl)) b2 (by rw [b3.1]; exact (show (0 : Nat) < 65534 by decide))
  have clean : ∀ l ∈ ls1 ++ ls2, l.Clean := by
    intro l hl
    rcases List.mem_append.1 hl with h | h
    · exact c1 l h
    · exact (d2 l h).fine.1
  have alone : ∀ v, JobLabel.site (.other v) ∉ ls1 ++ ls2 := by
    intro v hv
    rcases List.mem_append.1 hv with h | h
    · exact a2 _ h
    · exact d2 _ h
  have looks : ∀ i : Nat, ((fun _ => lookF) i).All Looks := fun _ => ⟨trivial, fun _ => ⟨trivial, fun _ => ⟨trivial, fun _ => ⟨trivial, fun _ => trivial⟩⟩⟩⟩
  exact ⟨n1, n2, ls1, ls2, a, a', a1, d1, looks, clean, alone, a3, d3,
    C94_programs_look_partial Mem.shortHost_short shortHost_quiet hu _ _ _ hj looks _ _ _ _ a1 d1 clean alone⟩

end Ninep.Client
