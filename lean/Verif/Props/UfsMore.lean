import Verif.Props.Ufs
import Verif.Props.Remote
import Verif.Lemmas.Sim

set_option linter.unusedSimpArgs false
set_option linter.unusedVariables false

/-
Further properties of the file server: the length of reads (C68), what a client knows about its fids (C69).
-/

namespace Ninep.Ufs
open Spec

section
variable {ω H : Type} (host : Host ω H) (user : GoString)

/-! ### C68 -/

theorem readDir_bound {fid : FID} {f : File H} {h : H} {c : Count} {s s' : State ω H} {d : Bytes}
    (hr : readDir host user fid f h c s = .ok s' d) : (d.length : Int) ≤ max 0 c.toInt := by
  unfold readDir at hr
  dsimp only at hr
  split at hr
  · cases hr; exact Int.le_max_left _ _
  · generalize host.readdir1 h _ = r at hr
    obtain ⟨w, r⟩ := r
    cases r with
    | eof => cases hr; omega
    | fail e => cases hr
    | entry st =>
      dsimp only at hr
      split at hr
      · cases hr; exact Int.le_max_left _ _
      · cases hr; omega

/-- **C68** A read never returns more bytes than it was asked for, whatever the host does. -/
theorem C68_read_bound {p : TreadPkt} {s s' : State ω H} {r : RMsg} (h : call (ufs host user) (.read p) s = .ok s' r) :
    ∃ d, r = .read ⟨d⟩ ∧ (d.length : Int) ≤ max 0 p.Len.toInt := by
  have hc : mapRes (fun q => RMsg.read ⟨q⟩) (rread host user p.OFID p.Off p.Len s) = .ok s' r := h
  cases hr : rread host user p.OFID p.Off p.Len s with
  | panic => rw [hr] at hc; cases hc
  | err x e => rw [hr] at hc; cases hc
  | ok x d =>
    rw [hr] at hc
    cases hc
    refine ⟨d, rfl, ?_⟩
    unfold rread at hr
    split at hr
    · cases hr
    · split at hr
      · cases hr
      · split at hr
        · split at hr
          · dsimp only at hr
            split at hr
            · cases hr
            · exact readDir_bound host user hr
          · exact readDir_bound host user hr
        · split at hr
          · cases hr
          · have hl : ∀ d : Bytes, (d.take p.Len.toInt.toNat).length ≤ p.Len.toInt.toNat := fun d => List.length_take_le _ _
            split at hr
            · cases hr
            · rename_i w d _
              cases hr
              have := hl d; omega
            · rename_i w d _
              cases hr
              have := hl d; omega

/-! ### C69 -/

/-- what the file server has about a fid -/
def File.known (f : File H) : Known := ⟨f.qid, f.file.isSome⟩

theorem known_wstat {fid : FID} {f : File H} {n : GoString} {s s' : State ω H} (hf : s.files fid = some f)
    (h : Renamed fid f n s s') (i : FID) : (s'.files i).map File.known = (s.files i).map File.known := by
  by_cases hi : i = fid
  · subst hi
    rcases h.2 with h | h <;> rw [h, hf] <;> rfl
  · rw [h.1.2.2 i (by simpa using hi)]

theorem dmdir_iff (perm : Perm) : perm &&& DMDIR ≠ 0 ↔ ¬ perm.toNat < 2 ^ 31 := by
  have hd : DMDIR.toNat = 2 ^ 31 := by decide
  have hlt := perm.toNat_lt
  have : (perm &&& DMDIR).toNat = if perm.toNat.testBit 31 then 2 ^ 31 else 0 := by
    rw [UInt32.toNat_and, hd, nat_and_two_pow]
  have hb : perm.toNat.testBit 31 = decide (2 ^ 31 ≤ perm.toNat) := by
    rw [Nat.testBit_eq_decide_div_mod_eq]
    congr 1
    apply propext
    omega
  constructor
  · intro h hl
    apply h
    apply UInt32.toNat.inj
    rw [this, hb, if_neg (by simpa using hl)]
    rfl
  · intro h h0
    rw [h0, hb, if_pos (by simpa using h)] at this
    cases this

theorem known_set (s : State ω H) (w : ω) (j i : FID) (f : File H) :
    (({ s with world := w }.set j f).files i).map File.known = if i = j then some f.known else (s.files i).map File.known := by
  by_cases h : i = j
  · subst h; simp
  · rw [set_other _ _ h, if_neg h]

/-- one request and the knowledge of the client -/
theorem event_known {m : TMsg} {s s' : State ω H} {a : Except GoString RMsg}
    (h : (call (ufs host user) m s).state? = some s') (ha : (call (ufs host user) m s).reply? = some a) (i : FID) :
    (s'.files i).map File.known = (Event.mk m a).learn (fun j => (s.files j).map File.known) i := by
  cases m with
  | version p =>
    have := (call_frame host user h).2.2 i (by simp [fids])
    rw [this]; rfl
  | flush p =>
    have := (call_frame host user h).2.2 i (by simp [fids])
    rw [this]; rfl
  | attach p =>
    have e : call (ufs host user) (.attach p) s =
      mapRes (fun q => .attach ⟨q⟩) (rattach host p.SFID p.AFID p.Uname p.Aname s) := rfl
    rw [e] at h ha
    rcases rattach_cases host p.SFID p.AFID p.Uname p.Aname s with ⟨w, e, he⟩ | ⟨w, f, hn, _, _, he⟩
    · rw [he] at h ha; cases h; cases ha; rfl
    · rw [he] at h ha; cases h; cases ha
      rw [known_set]
      simp [Event.learn, File.known, hn]
  | walk p =>
    simp only [call, ufs] at h ha
    unfold rwalk at h ha
    cases hf : s.files p.SFID with
    | none => rw [hf] at h ha; cases h; cases ha; rfl
    | some f =>
      rw [hf] at h ha
      dsimp only at h ha
      by_cases hp : p.Paths = []
      · rw [if_pos hp] at h ha
        cases hnf : s.files p.NewFID with
        | some g => rw [hnf] at h ha; cases h; cases ha; rfl
        | none =>
          rw [hnf] at h ha
          cases h; cases ha
          have := known_set s s.world p.NewFID i f
          rw [this]
          simp [Event.learn, hp, hf]
      · rw [if_neg hp] at h ha
        obtain ⟨h1, _, h3, h4⟩ := walkLoop_spec host f.fullName s.world p.Paths
        generalize walkLoop host f.fullName s.world p.Paths = r at h ha h1 h3 h4
        obtain ⟨w, q, r⟩ := r
        cases r with
        | none =>
          have hl := (h3 rfl).1
          dsimp only at h ha hl
          split at h
          · rename_i hq
            rw [if_pos hq] at ha
            cases h; cases ha; rfl
          · rename_i hq
            rw [if_neg hq] at ha
            cases h; cases ha
            simp [Event.learn, Nat.ne_of_lt hl]
        | some pth =>
          have hl := (h4 pth rfl).1
          dsimp only at h ha hl
          split at h
          · rename_i hq
            rw [if_pos hq] at ha
            cases h; cases ha; rfl
          · rename_i hq
            rw [if_neg hq] at ha
            cases h; cases ha
            rw [known_set]
            have hqne : q ≠ [] := by
              rintro rfl
              simp at hl
              exact hp (List.eq_nil_of_length_eq_zero hl.symm)
            have : q.getLast? = some (q.getLastD {}) := by
              rw [List.getLastD_eq_getLast?, List.getLast?_eq_some_getLast hqne]; rfl
            simp only [Event.learn, hl, this, File.known, and_true, Option.isSome_none]
  | open_ p =>
    simp only [call, ufs] at h ha
    unfold ropen at h ha
    cases hf : s.files p.OFID with
    | none =>
      rw [hf] at h ha; cases h; cases ha
      simp only [Event.learn]
      split
      · rename_i hi; rw [hi, hf]; rfl
      · rfl
    | some f =>
      rw [hf] at h ha
      dsimp only at h ha
      generalize host.openFile f.fullName _ _ _ = r at h ha
      obtain ⟨w, r⟩ := r
      cases r with
      | error e =>
        cases h; cases ha
        rw [known_set]
        simp only [Event.learn]
        split
        · rename_i hi; rw [hi, hf]; rfl
        · rfl
      | ok x =>
        cases h; cases ha
        rw [known_set]
        simp only [Event.learn]
        split
        · rename_i hi; rw [hi, hf]; rfl
        · rfl
  | create p =>
    simp only [call, ufs] at h ha
    unfold rcreate at h ha
    cases hf : s.files p.OFID with
    | none => rw [hf] at h ha; cases h; cases ha; rfl
    | some f =>
      rw [hf] at h ha
      dsimp only at h ha
      cases ho : f.file with
      | some x =>
        rw [ho] at h ha
        simp only [Option.isSome_some, if_true] at h ha
        cases h; cases ha; rfl
      | none =>
        rw [ho] at h ha
        simp only [Option.isSome_none, Bool.false_eq_true, if_false] at h ha
        by_cases hd : p.CreatePerm &&& DMDIR ≠ 0
        · rw [if_pos hd] at h ha
          generalize host.lstat _ _ = r at h ha
          obtain ⟨w, r⟩ := r
          cases r with
          | error e => cases h; cases ha; rfl
          | ok st =>
            cases h; cases ha
            have hnl := (dmdir_iff p.CreatePerm).1 hd
            refine (known_set s w p.OFID i _).trans ?_
            simp only [Event.learn, mapRes, File.known, ho, decide_eq_false hnl, Option.isSome_none]
        · rw [if_neg hd] at h ha
          generalize host.openFile _ _ _ _ = r at h ha
          obtain ⟨w, r⟩ := r
          cases r with
          | error e => cases h; cases ha; rfl
          | ok x =>
            dsimp only at h ha
            generalize host.lstat _ _ = r at h ha
            obtain ⟨w, r⟩ := r
            cases r with
            | error e => cases h; cases ha; rfl
            | ok st =>
              cases h; cases ha
              have hlt : p.CreatePerm.toNat < 2 ^ 31 := by
                have := mt (dmdir_iff p.CreatePerm).2 hd
                exact Classical.not_not.1 this
              refine (known_set s w p.OFID i _).trans ?_
              simp only [Event.learn, mapRes, File.known, decide_eq_true hlt, Option.isSome_some]
  | stat p =>
    have hs : s'.files = s.files := by
      simp only [call, state?_mapRes, ufs] at h
      unfold rstat at h
      split at h
      · cases h; rfl
      · split at h <;> (cases h; rfl)
    rw [hs]; rfl
  | wstat p =>
    simp only [call, state?_mapRes, ufs] at h
    cases hf : s.files p.OFID with
    | none => rw [rwstat_none host hf] at h; cases h; rfl
    | some f =>
      rcases rwstat_cases host (b := p.B) hf with ⟨e, he⟩ | ⟨dir, t, b', _, ⟨_, he⟩ | ⟨e, _, he⟩⟩ <;> rw [he] at h <;> cases h
      · rfl
      · exact known_wstat hf (wstatRun_renamed host hf) i
      · exact known_wstat hf (wstatRun_renamed host hf) i
  | clunk p =>
    simp only [call, state?_mapRes, ufs] at h
    unfold rclunk at h
    cases hf : s.files p.OFID with
    | none =>
      rw [clunk_none host hf] at h
      cases h
      simp only [Event.learn]
      split
      · rename_i hi; rw [hi, hf]; rfl
      · rfl
    | some f =>
      obtain ⟨w, hc, _⟩ := clunk_some host hf
      rw [hc] at h
      cases h
      simp only [Event.learn]
      split
      · rename_i hi; subst hi; simp
      · rename_i hi
        show ((s.del p.OFID).files i).map File.known = _
        rw [del_other _ hi]
  | remove p =>
    simp only [call, state?_mapRes, ufs] at h
    unfold rremove at h
    cases hf : s.files p.OFID with
    | none =>
      rw [clunk_none host hf] at h
      cases h
      simp only [Event.learn]
      split
      · rename_i hi; rw [hi, hf]; rfl
      · rfl
    | some f =>
      obtain ⟨w, hc, _⟩ := clunk_some host hf
      rw [hc] at h
      have hfs : s'.files = (s.del p.OFID).files := by
        dsimp only at h
        split at h <;> (cases h; rfl)
      rw [hfs]
      simp only [Event.learn]
      split
      · rename_i hi; subst hi; simp
      · rename_i hi
        rw [del_other _ hi]
  | read p =>
    simp only [call, state?_mapRes, ufs] at h
    cases hf : s.files p.OFID with
    | none =>
      unfold rread at h
      rw [hf] at h; cases h; rfl
    | some f =>
      obtain ⟨w, rfl | ⟨x, rfl, _⟩⟩ := rread_state host user hf h
      · rfl
      · rw [known_set]
        simp only [Event.learn]
        split
        · rename_i hi; rw [hi, hf]; rfl
        · rfl
  | write p =>
    have hs : s'.files = s.files := by
      simp only [call, state?_mapRes, ufs] at h
      unfold rwrite at h
      split at h
      · cases h; rfl
      · split at h
        · cases h; rfl
        · split at h <;> (cases h; rfl)
    rw [hs]; rfl

theorem learn_congr (e : Event) {k k' : FID → Option Known} (h : ∀ i, k i = k' i) (i : FID) : e.learn k i = e.learn k' i := by
  have : k = k' := funext h
  rw [this]

theorem hist_known {P : State ω H → TMsg → Prop} {R : ω → ω → Prop} {s s' : State ω H} {h : List Event}
    (hh : Hist host user P R s h s') :
    (fun i => (s'.files i).map File.known) = h.foldl (fun k e => e.learn k) fun i => (s.files i).map File.known := by
  induction hh with
  | nil s => rfl
  | @ok s m s1 r h s' _ hc _ ih =>
    rw [ih, List.foldl_cons]
    congr 1
    exact funext fun i => event_known host user (by rw [hc]; rfl) (by rw [hc]; rfl) i
  | @err s m s1 e h s' _ hc _ ih =>
    rw [ih, List.foldl_cons]
    congr 1
    exact funext fun i => event_known host user (by rw [hc]; rfl) (by rw [hc]; rfl) i
  | other w _ _ ih => exact ih

/-- **C69** What the replies say about a fid stays true: after any history of requests of a connection, and
whatever other processes do, the file server has exactly those fids that the client knows from the replies,
with the QIDs the replies told; open answers with this QID; reads and writes are refused with "FID not
open", changing nothing, exactly if the replies do not say that the fid is open. -/
theorem C69_known {root : GoString} {w : ω} {s : State ω H} {h : List Event}
    (hh : Hist host user AnyReq AnyWorld (newFS root w) h s) (fid : FID) :
    (known h fid = none ↔ s.files fid = none) ∧
    (∀ mode s' q u, (ufs host user).Ropen fid mode s = .ok s' (q, u) → ∃ o, known h fid = some ⟨q, o⟩) ∧
    (∀ q, known h fid = some ⟨q, false⟩ → ∀ o c, (ufs host user).Rread fid o c s = .err s (lit "FID not open")) ∧
    (∀ q, known h fid = some ⟨q, false⟩ → ∀ o b, (ufs host user).Rwrite fid o b s = .err s (lit "FID not open")) ∧
    (∀ q, known h fid = some ⟨q, true⟩ → ∃ f x, s.files fid = some f ∧ f.file = some x ∧ f.qid = q ∧
      ∀ n p m, (ufs host user).Rcreate fid n p m s = .err s (lit "FID already open")) := by
  have hk : known h fid = (s.files fid).map File.known := by
    have := congrFun (hist_known host user hh) fid
    rw [this]
    rfl
  rw [hk]
  cases hf : s.files fid with
  | none =>
    refine ⟨by simp, ?_, by simp, by simp, by simp⟩
    intro mode s' q u ho
    have ho : ropen host fid mode s = .ok s' (q, u) := ho
    unfold ropen at ho
    rw [hf] at ho
    cases ho
  | some f =>
    simp only [Option.map_some, Option.some.injEq, File.known, Known.mk.injEq, reduceCtorEq, false_iff,
      iff_false, not_false_eq_true, true_and]
    refine ⟨?_, ?_, ?_, ?_⟩
    · intro mode s' q u ho
      have ho : ropen host fid mode s = .ok s' (q, u) := ho
      unfold ropen at ho
      rw [hf] at ho
      dsimp only at ho
      generalize host.openFile f.fullName _ _ _ = r at ho
      obtain ⟨w, r⟩ := r
      cases r with
      | error e => cases ho
      | ok x => cases ho; exact ⟨_, rfl, rfl⟩
    · rintro q ⟨rfl, hn⟩ o c
      have hn : f.file = none := by cases hx : f.file with | none => rfl | some x => rw [hx] at hn; cases hn
      show rread host user fid o c s = _
      unfold rread; rw [hf]; dsimp only; rw [hn]
    · rintro q ⟨rfl, hn⟩ o c
      have hn : f.file = none := by cases hx : f.file with | none => rfl | some x => rw [hx] at hn; cases hn
      show rwrite host fid o c s = _
      unfold rwrite; rw [hf]; dsimp only; rw [hn]
    · rintro q ⟨rfl, hn⟩
      cases hx : f.file with
      | none => rw [hx] at hn; cases hn
      | some x =>
        refine ⟨f, x, rfl, hx, rfl, fun n p m => ?_⟩
        show rcreate host fid n p m s = _
        unfold rcreate; rw [hf]; dsimp only; rw [hx]; rfl

/-! ### C71 -/

/-- **C71, partial** What attach does to the fid table: a refused attach changes no fid; a successful one
changes only the fid it names, which is afterwards closed and has the QID of the reply.  Missing: that
the fid was not in use before (`C71_counterexample`). -/
theorem C71_attach_partial {p : TattachPkt} {s : State ω H} :
    (∃ s' e, call (ufs host user) (.attach p) s = .err s' e ∧ s'.files = s.files) ∨
    (∃ s' q f, call (ufs host user) (.attach p) s = .ok s' (.attach ⟨q⟩) ∧
      s'.files p.SFID = some f ∧ f.qid = q ∧ f.file = none ∧ ∀ i, i ≠ p.SFID → s'.files i = s.files i) := by
  have e : call (ufs host user) (.attach p) s =
    mapRes (fun q => .attach ⟨q⟩) (rattach host p.SFID p.AFID p.Uname p.Aname s) := rfl
  rw [e]
  rcases rattach_cases host p.SFID p.AFID p.Uname p.Aname s with ⟨w, e, he⟩ | ⟨w, f, hn, _, _, he⟩
  · rw [he]; exact .inl ⟨_, _, rfl, rfl⟩
  · rw [he]
    exact .inr ⟨_, _, f, rfl, by simp, rfl, hn, fun i hi => set_other _ _ hi⟩

/-! ### C72 -/

/-- **C72, partial** Open on a fid that is in use does the same whether the fid is open or not: it opens the
file of the fid again and forgets what was open.  Create is refused on an open fid. Missing: that open is
refused as well (`C72_counterexample`). -/
theorem C72_open_partial {fid : FID} {s : State ω H} {f : File H} (hf : s.files fid = some f) (mode : Mode) :
    (match (host.openFile f.fullName (Spec.openFlags mode) 0 s.world).2 with
      | .ok h => ∃ s', (ufs host user).Ropen fid mode s = .ok s' (f.qid, s.IOunit) ∧ s'.files fid = some { f with file := some h }
      | .error e => ∃ s', (ufs host user).Ropen fid mode s = .err s' e ∧ s'.files fid = some { f with file := none }) ∧
    (f.file.isSome → ∀ name perm mode, (ufs host user).Rcreate fid name perm mode s = .err s (lit "FID already open")) := by
  constructor
  · have he : (ufs host user).Ropen fid mode s = ropen host fid mode s := rfl
    rw [he]
    unfold ropen
    rw [hf, ← modeToUnixFlags_spec]
    dsimp only
    generalize host.openFile f.fullName _ _ _ = r
    obtain ⟨w, r⟩ := r
    cases r with
    | error e => exact ⟨_, rfl, by simp⟩
    | ok h => exact ⟨_, rfl, by simp⟩
  · intro ho name perm mode
    show rcreate host fid name perm mode s = _
    unfold rcreate
    rw [hf]
    simp only [ho, if_true]

/-! ### C74 -/

/-- the state with another value of the flag `Versioned` of the `FileServer` -/
def State.flag (b : Bool) (s : State ω H) : State ω H := { s with Versioned := b }

/-- the same but for the flag -/
def FlagOnly (s t : State ω H) : Prop := ∃ b, s = t.flag b

theorem flag_set (b : Bool) (s : State ω H) (w : ω) (i : FID) (f : File H) :
    { s.flag b with world := w }.set i f = ({ s with world := w }.set i f).flag b := rfl

theorem andThen_flag {b : Bool} {r r' : State ω H × Option GoString} {k : State ω H → State ω H × Option GoString}
    (hr : r' = (r.1.flag b, r.2)) (hk : ∀ s, k (s.flag b) = ((k s).1.flag b, (k s).2)) :
    andThen r' k = ((andThen r k).1.flag b, (andThen r k).2) := by
  subst hr
  obtain ⟨s, e⟩ := r
  cases e with
  | none => exact hk s
  | some e => rfl

theorem wstatRun_flag (b : Bool) (fid : FID) (f : File H) (dir : Dir) (s : State ω H) :
    wstatRun host fid f dir (s.flag b) = ((wstatRun host fid f dir s).1.flag b, (wstatRun host fid f dir s).2) := by
  unfold wstatRun
  refine andThen_flag ?_ fun s => andThen_flag ?_ fun s => andThen_flag ?_ fun s => andThen_flag ?_ fun s => andThen_flag ?_ fun s => ?_
  · unfold wstatMode; split <;> rfl
  · unfold wstatUser; split <;> rfl
  · unfold wstatName
    split
    · dsimp only
      rw [show (s.flag b).rootPath = s.rootPath from rfl, show (s.flag b).world = s.world from rfl]
      split
      · rfl
      · refine andThen_flag ?_ fun s => ?_ <;> rfl
    · rfl
  · unfold wstatLength; split <;> rfl
  · unfold wstatTimes
    rw [show (s.flag b).world = s.world from rfl]
    split
    · split
      · generalize host.stat _ s.world = r
        obtain ⟨w, r⟩ := r
        cases r <;> rfl
      · rfl
    · rfl
  · unfold wstatSync
    split
    · split <;> rfl
    · rfl

/-- No result depends on the flag. -/
theorem flag_same : Same FlagOnly (ufs host user) (ufs host user) := by
  rintro m s t ⟨b, rfl⟩
  have mp : ∀ {α : Type} (g : α → RMsg) (r r' : NRes (State ω H) α), ResRel FlagOnly r r' → ResRel FlagOnly (mapRes g r) (mapRes g r') := by
    intro α g r r' h
    cases r <;> cases r' <;> first | exact h.elim | trivial | exact h | exact ⟨h.1, congrArg g h.2⟩
  cases m with
  | version p =>
    refine mp _ _ _ ?_
    show ResRel FlagOnly (rversion _ _ _) (rversion _ _ _)
    unfold rversion
    split
    · exact ⟨⟨b, rfl⟩, rfl⟩
    · exact ⟨⟨true, rfl⟩, rfl⟩
  | attach p =>
    refine mp _ _ _ ?_
    show ResRel FlagOnly (rattach host _ _ p.Uname _ _) (rattach host _ _ p.Uname _ _)
    unfold rattach
    split
    · exact ⟨⟨b, rfl⟩, rfl⟩
    · dsimp only [State.flag]
      generalize host.stat _ t.world = r
      obtain ⟨w, r⟩ := r
      cases r <;> exact ⟨⟨b, rfl⟩, rfl⟩
  | flush p => exact ⟨⟨b, rfl⟩, rfl⟩
  | walk p =>
    refine mp _ _ _ ?_
    show ResRel FlagOnly (rwalk host _ _ _ _) (rwalk host _ _ _ _)
    unfold rwalk
    dsimp only [State.flag]
    cases t.files p.SFID with
    | none => exact ⟨⟨b, rfl⟩, rfl⟩
    | some f =>
      dsimp only
      split
      · cases t.files p.NewFID with
        | none => exact ⟨⟨b, rfl⟩, rfl⟩
        | some g => exact ⟨⟨b, rfl⟩, rfl⟩
      · generalize walkLoop host f.fullName t.world p.Paths = r
        obtain ⟨w, q, r⟩ := r
        cases r with
        | none => dsimp only; split <;> exact ⟨⟨b, rfl⟩, rfl⟩
        | some x => dsimp only; split <;> exact ⟨⟨b, rfl⟩, rfl⟩
  | open_ p =>
    refine mp _ _ _ ?_
    show ResRel FlagOnly (ropen host _ _ _) (ropen host _ _ _)
    unfold ropen
    dsimp only [State.flag]
    cases t.files p.OFID with
    | none => exact ⟨⟨b, rfl⟩, rfl⟩
    | some f =>
      dsimp only
      generalize host.openFile f.fullName _ _ t.world = r
      obtain ⟨w, r⟩ := r
      cases r <;> exact ⟨⟨b, rfl⟩, rfl⟩
  | create p =>
    refine mp _ _ _ ?_
    show ResRel FlagOnly (rcreate host _ _ _ _ _) (rcreate host _ _ _ _ _)
    unfold rcreate
    dsimp only [State.flag]
    cases t.files p.OFID with
    | none => exact ⟨⟨b, rfl⟩, rfl⟩
    | some f =>
      dsimp only
      split
      · exact ⟨⟨b, rfl⟩, rfl⟩
      · split
        · generalize host.lstat _ _ = r
          obtain ⟨w, r⟩ := r
          cases r <;> exact ⟨⟨b, rfl⟩, rfl⟩
        · generalize host.openFile _ _ _ t.world = r
          obtain ⟨w, r⟩ := r
          cases r with
          | error e => exact ⟨⟨b, rfl⟩, rfl⟩
          | ok h =>
            dsimp only
            generalize host.lstat _ _ = r
            obtain ⟨w, r⟩ := r
            cases r <;> exact ⟨⟨b, rfl⟩, rfl⟩
  | stat p =>
    refine mp _ _ _ ?_
    show ResRel FlagOnly (rstat host user _ _) (rstat host user _ _)
    unfold rstat
    dsimp only [State.flag]
    cases t.files p.OFID with
    | none => exact ⟨⟨b, rfl⟩, rfl⟩
    | some f =>
      dsimp only
      generalize host.lstat _ _ = r
      obtain ⟨w, r⟩ := r
      cases r <;> exact ⟨⟨b, rfl⟩, rfl⟩
  | wstat p =>
    refine mp _ _ _ ?_
    show ResRel FlagOnly (rwstat host _ _ _) (rwstat host _ _ _)
    cases hf : t.files p.OFID with
    | none =>
      rw [rwstat_none host hf, rwstat_none host (s := t.flag b) hf]
      exact ⟨⟨b, rfl⟩, rfl⟩
    | some f =>
      unfold rwstat
      rw [hf, show (t.flag b).files p.OFID = some f from hf]
      dsimp only
      cases unmarshaldir (Buffer.ofBytes p.B) with
      | panic => trivial
      | done d tg e b1 =>
        cases e with
        | some e => exact ⟨⟨b, rfl⟩, rfl⟩
        | none =>
          have := wstatRun_flag host b p.OFID f d t
          show ResRel FlagOnly (match wstatRun host p.OFID f d (t.flag b) with | (s, none) => .ok s () | (s, some e) => .err s e)
            (match wstatRun host p.OFID f d t with | (s, none) => .ok s () | (s, some e) => .err s e)
          rw [this]
          generalize wstatRun host p.OFID f d t = r
          obtain ⟨x, r⟩ := r
          cases r <;> exact ⟨⟨b, rfl⟩, rfl⟩
  | clunk p =>
    refine mp _ _ _ ?_
    show ResRel FlagOnly (rclunk host _ _) (rclunk host _ _)
    unfold rclunk clunk
    dsimp only [State.flag]
    cases t.files p.OFID with
    | none => exact ⟨⟨b, rfl⟩, rfl⟩
    | some f =>
      dsimp only
      cases f.file <;> exact ⟨⟨b, rfl⟩, rfl⟩
  | remove p =>
    refine mp _ _ _ ?_
    show ResRel FlagOnly (rremove host _ _) (rremove host _ _)
    unfold rremove clunk
    dsimp only [State.flag]
    cases t.files p.OFID with
    | none => exact ⟨⟨b, rfl⟩, rfl⟩
    | some f =>
      dsimp only
      cases f.file with
      | none =>
        dsimp only [State.del]
        generalize host.remove _ _ = r
        obtain ⟨w, r⟩ := r
        cases r <;> exact ⟨⟨b, rfl⟩, rfl⟩
      | some h =>
        dsimp only [State.del]
        generalize host.remove _ _ = r
        obtain ⟨w, r⟩ := r
        cases r <;> exact ⟨⟨b, rfl⟩, rfl⟩
  | read p =>
    have rd : ∀ (f : File H) (h : H) (c : Count) (x : State ω H),
        ResRel FlagOnly (readDir host user p.OFID f h c (x.flag b)) (readDir host user p.OFID f h c x) := by
      intro f h c x
      unfold readDir
      dsimp only [State.flag, State.set]
      split
      · exact ⟨⟨b, rfl⟩, rfl⟩
      · generalize host.readdir1 _ _ = r
        obtain ⟨w, r⟩ := r
        cases r with
        | eof => exact ⟨⟨b, rfl⟩, rfl⟩
        | fail e => exact ⟨⟨b, rfl⟩, rfl⟩
        | entry st => dsimp only; split <;> exact ⟨⟨b, rfl⟩, rfl⟩
    refine mp _ _ _ ?_
    show ResRel FlagOnly (rread host user _ _ _ _) (rread host user _ _ _ _)
    unfold rread
    rw [show (t.flag b).files = t.files from rfl, show (t.flag b).world = t.world from rfl]
    cases t.files p.OFID with
    | none => exact ⟨⟨b, rfl⟩, rfl⟩
    | some f =>
      dsimp only
      cases f.file with
      | none => exact ⟨⟨b, rfl⟩, rfl⟩
      | some h =>
        dsimp only
        split
        · split
          · dsimp only [State.set]
            rw [show (t.flag b).world = t.world from rfl]
            generalize host.seek0 _ _ = r
            obtain ⟨w, r⟩ := r
            cases r with
            | none => exact rd _ _ _ ({ t with world := w }.set p.OFID _)
            | some e => exact ⟨⟨b, rfl⟩, rfl⟩
          · exact rd _ _ _ t
        · split
          · trivial
          · generalize host.readAt _ _ _ _ = r
            obtain ⟨w, d, r⟩ := r
            cases r <;> exact ⟨⟨b, rfl⟩, rfl⟩
  | write p =>
    refine mp _ _ _ ?_
    show ResRel FlagOnly (rwrite host _ _ _ _) (rwrite host _ _ _ _)
    unfold rwrite
    dsimp only [State.flag]
    cases t.files p.OFID with
    | none => exact ⟨⟨b, rfl⟩, rfl⟩
    | some f =>
      dsimp only
      cases f.file with
      | none => exact ⟨⟨b, rfl⟩, rfl⟩
      | some h =>
        dsimp only
        generalize host.writeAt _ _ _ _ = r
        obtain ⟨w, n, r⟩ := r
        cases r <;> exact ⟨⟨b, rfl⟩, rfl⟩

open Client in
theorem runCalls_same {σ τ : Type} {R : σ → τ → Prop} {ns : NineServer σ} {nt : NineServer τ} (hs : Same R ns nt) (ms : List TMsg)
    {s : σ} {t : τ} (h : R s t) :
    match runCalls ns ms s, runCalls nt ms t with
    | none, none => True
    | some x, some y => R x.1 y.1 ∧ x.2 = y.2
    | _, _ => False := by
  induction ms generalizing s t with
  | nil => exact ⟨h, rfl⟩
  | cons m ms ih =>
    have hm := hs m s t h
    unfold runCalls
    generalize call ns m s = r at hm
    generalize call nt m t = r' at hm
    cases r <;> cases r' <;> try exact hm.elim
    · trivial
    · rename_i x a y b
      have := ih hm.1
      dsimp only
      generalize runCalls ns ms x = q at this
      generalize runCalls nt ms y = q' at this
      cases q <;> cases q' <;> try exact this.elim
      · trivial
      · exact ⟨this.1, by dsimp only; rw [hm.2, show _ = _ from this.2]⟩
    · rename_i x a y b
      have := ih hm.1
      dsimp only
      generalize runCalls ns ms x = q at this
      generalize runCalls nt ms y = q' at this
      cases q <;> cases q' <;> try exact this.elim
      · trivial
      · exact ⟨this.1, by dsimp only; rw [hm.2, show _ = _ from this.2]⟩

open Client in
/-- **C74, partial** What a Tversion does: the file server changes no fid, does not touch the host, and all
requests after it have the same results as without it.  Missing: that it ends the session
(`C74_counterexample`). -/
theorem C74_version_partial (p : TversionPkt) (ms : List TMsg) (s x : State ω H) (r : Except GoString RMsg)
    (outs : List (Except GoString RMsg)) (h : runCalls (ufs host user) (.version p :: ms) s = some (x, r :: outs)) :
    ∃ x', runCalls (ufs host user) ms s = some (x', outs) ∧ x.files = x'.files ∧ x.world = x'.world := by
  have key : ∀ s', FlagOnly s' s → (runCalls (ufs host user) ms s').map (fun y => (y.1, r :: y.2)) = some (x, r :: outs) →
      ∃ x', runCalls (ufs host user) ms s = some (x', outs) ∧ x.files = x'.files ∧ x.world = x'.world := by
    intro s' hs' hr
    have := runCalls_same (flag_same host user) ms hs'
    generalize runCalls (ufs host user) ms s' = q at this hr
    generalize runCalls (ufs host user) ms s = q' at this
    cases q with
    | none => cases hr
    | some q =>
      cases q' with
      | none => exact this.elim
      | some q' =>
        obtain ⟨y, o⟩ := q
        cases hr
        obtain ⟨⟨b, rfl⟩, rfl⟩ := this
        exact ⟨q'.1, rfl, rfl, rfl⟩
  unfold runCalls at h
  simp only [call, ufs, rversion] at h
  split at h
  · cases h
  · rename_i s' a hm
    by_cases hv : p.TVersion ≠ lit "9P2000"
    · rw [if_pos hv] at hm; cases hm
    · rw [if_neg hv] at hm
      cases hm
      have hr : r = .ok (.version ⟨p.TMsize, p.TVersion⟩) := by
        generalize runCalls _ ms _ = q at h
        cases q with
        | none => cases h
        | some q => cases h; rfl
      subst hr
      exact key _ ⟨true, rfl⟩ h
  · rename_i s' e hm
    by_cases hv : p.TVersion ≠ lit "9P2000"
    · rw [if_pos hv] at hm
      cases hm
      have hr : r = .error (p.TVersion ++ lit " not supported; only 9P2000") := by
        generalize runCalls _ ms _ = q at h
        cases q with
        | none => cases h
        | some q => cases h; rfl
      subst hr
      exact key _ ⟨s.Versioned, rfl⟩ h
    · rw [if_neg hv] at hm; cases hm

/-! ### C75 -/

/-- **C75, partial** The packet of a reply to a read is at most 11 bytes longer than the count asked for.  So
a client that never asks for more than the agreed size less 11 gets only read replies that fit.  Missing:
the file server does not remember the agreed size and answers requests with larger counts, and other
requests, with packets that are longer (`C75_counterexample`). -/
theorem C75_read_fits_partial (p : TreadPkt) (msize : MaxSize) (t : Tag) (s s' : State ω H) (r : RMsg)
    (hm : p.Len.toInt + 11 ≤ msize.toNat) (h0 : 0 ≤ p.Len.toInt) (h : call (ufs host user) (.read p) s = .ok s' r) :
    (r.packet t).length ≤ msize.toNat := by
  obtain ⟨d, rfl, hd⟩ := C68_read_bound host user h
  have : ((RMsg.read ⟨d⟩).packet t).length = 11 + d.length := by
    simp [RMsg.packet, packet, RMsg.body, RMsg.fields, le]
    omega
  omega

/-- how long the packet of a reply other than Rstat can get -/
def replyBound : TMsg → Option Nat
  | .version p => some (13 + p.TVersion.length)
  | .attach _ => some 20
  | .flush _ => some 7
  | .walk p => some (9 + 13 * p.Paths.length)
  | .open_ _ => some 24
  | .create _ => some 24
  | .stat _ => none
  | .wstat _ => some 7
  | .clunk _ => some 7
  | .remove _ => some 7
  | .read p => some (11 + p.Len.toInt.toNat)
  | .write _ => some 11

/-- **C75, partial** The packets of all other replies but Rstat and Rerror have a length that the client knows
when it sends the request. -/
theorem C75_reply_bound_partial (m : TMsg) (n : Nat) (hn : replyBound m = some n) (t : Tag) (s s' : State ω H) (r : RMsg)
    (h : call (ufs host user) m s = .ok s' r) : (r.packet t).length ≤ n := by
  have ok_of : ∀ {α : Type} (g : α → RMsg) (x : NRes (State ω H) α), mapRes g x = .ok s' r → ∃ a, x = .ok s' a ∧ r = g a := by
    intro α g x hx
    cases x with
    | panic => cases hx
    | err => cases hx
    | ok y a => cases hx; exact ⟨a, rfl, rfl⟩
  have hq : ∀ q : QID, (Spec.qid q).length = 13 := fun q => by simp [Spec.qid, le]
  have hqs : ∀ l : List QID, (l.map Spec.qid).flatten.length = 13 * l.length := by
    intro l
    induction l with
    | nil => rfl
    | cons q l ih => simp only [List.map_cons, List.flatten_cons, List.length_append, List.length_cons, hq, ih]; omega
  cases m with
  | read p =>
    cases hn
    obtain ⟨d, rfl, hd⟩ := C68_read_bound host user h
    have : ((RMsg.read ⟨d⟩).packet t).length = 11 + d.length := by
      simp [RMsg.packet, packet, RMsg.body, RMsg.fields, le]
      omega
    omega
  | version p =>
    cases hn
    simp only [call] at h
    obtain ⟨a, h1, rfl⟩ := ok_of _ _ h
    have h : rversion p.TMsize p.TVersion s = .ok s' a := h1
    unfold rversion at h
    split at h
    · cases h
    · cases h
      simp [RMsg.packet, packet, RMsg.body, RMsg.fields, le, Spec.str]
      omega
  | walk p =>
    cases hn
    simp only [call] at h
    obtain ⟨q, h1, rfl⟩ := ok_of _ _ h
    have h : rwalk host p.SFID p.NewFID p.Paths s = .ok s' q := h1
    have hl : q.length ≤ p.Paths.length := by
      unfold rwalk at h
      split at h
      · cases h
      · rename_i f hf
        split at h
        · split at h
          · cases h
          · cases h; simp
        · clear h1
          have hw := (walkLoop_spec host f.fullName s.world p.Paths).1
          generalize walkLoop host f.fullName s.world p.Paths = y at h hw
          obtain ⟨w, q', r⟩ := y
          cases r with
          | none =>
            dsimp only at h
            split at h
            · cases h
            · cases h; exact hw
          | some pth =>
            dsimp only at h
            split at h
            · cases h
            · cases h; exact hw
    simp only [RMsg.packet, packet, RMsg.body, RMsg.fields, List.length_append, hqs, le]
    simp
    omega
  | stat p => cases hn
  | _ =>
    cases hn
    simp only [call] at h
    obtain ⟨a, h1, rfl⟩ := ok_of _ _ h
    simp [RMsg.packet, packet, RMsg.body, RMsg.fields, le, hq]

/-! ### C77, C78 -/

/-- the host told this about some path at some time -/
def Reported (fi : FileInfo) : Prop := ∃ p w, (host.lstat p w).2 = .ok fi ∨ (host.stat p w).2 = .ok fi

/-- whole milliseconds since 1970 -/
def Time.ms (t : Time) : Nat := ((t.sec * 1000000000 + t.nsec) / 1000000).toNat

/-- What the QID of a file should be: the inode number, the modification time in milliseconds (modulo 2^32,
for times between 1970 and 2262), 128 for a directory and 2 for a symbolic link. -/
def IsQidOf (fi : FileInfo) (q : QID) : Prop :=
  (∀ ino, fi.sys = some ino → q.Path = ino) ∧
  (0 ≤ fi.modTime.sec → fi.modTime.sec * 1000000000 + fi.modTime.nsec < 2 ^ 63 → q.Version.toNat = fi.modTime.ms % 2 ^ 32) ∧
  q.Typ.toNat = (if fi.mode.toNat.testBit 31 then 128 else 0) + (if fi.mode.toNat.testBit 27 then 2 else 0)

theorem qid_version (fi : FileInfo) (h0 : 0 ≤ fi.modTime.sec) (h1 : fi.modTime.sec * 1000000000 + fi.modTime.nsec < 2 ^ 63) :
    (fileInfoToQID fi).Version.toNat = fi.modTime.ms % 2 ^ 32 := by
  unfold fileInfoToQID Time.ms Time.unixNano
  dsimp only
  generalize hn : fi.modTime.sec * 1000000000 + fi.modTime.nsec = n at h1 ⊢
  have hn0 : 0 ≤ n := by omega
  clear hn
  obtain ⟨k, rfl⟩ := Int.eq_ofNat_of_zero_le hn0
  rw [UInt64.toNat_toUInt32]
  congr 1
  have hk : k < 2 ^ 63 := by omega
  have e1 : (Int64.ofInt (k : Int) / 1000000).toInt = ((k / 1000000 : Nat) : Int) := by
    have hne : Int64.ofInt (k : Int) ≠ Int64.minValue := by
      intro h
      have := congrArg Int64.toInt h
      rw [Int64.toInt_ofInt_of_le (by omega) (by omega)] at this
      have hm : Int64.minValue.toInt < 0 := by decide
      omega
    rw [Int64.toInt_div_of_ne_left _ _ hne, Int64.toInt_ofInt_of_le (by omega) (by omega)]
    rfl
  have e2 : ((Int64.ofInt (k : Int) / 1000000).toUInt64.toNat : Int) = (Int64.ofInt (k : Int) / 1000000).toInt := by
    rw [← Int64.toInt_toBitVec] at e1 ⊢
    rw [BitVec.toInt_eq_toNat_cond] at e1 ⊢
    have hb : (Int64.ofInt (k : Int) / 1000000).toUInt64.toNat = (Int64.ofInt (k : Int) / 1000000).toBitVec.toNat := rfl
    rw [hb]
    split at e1
    · rename_i hlt; rw [if_pos hlt]
    · have := (Int64.ofInt (k : Int) / 1000000).toBitVec.isLt
      omega
  have : ((k : Int) / 1000000).toNat = k / 1000000 := by omega
  rw [this]
  omega
theorem isDir_bit (fi : FileInfo) : fi.isDir = fi.mode.toNat.testBit 31 := by
  unfold FileInfo.isDir
  have h : (fi.mode &&& ModeDir).toNat = if fi.mode.toNat.testBit 31 then 2 ^ 31 else 0 := by
    rw [UInt32.toNat_and, show ModeDir.toNat = 2 ^ 31 from by decide, nat_and_two_pow]
  cases hb : fi.mode.toNat.testBit 31 with
  | true =>
    rw [hb] at h
    simp only [bne_iff_ne]
    intro h0
    rw [h0] at h
    cases h
  | false =>
    rw [hb] at h
    simp only [bne_eq_false_iff_eq]
    exact UInt32.toNat_inj.1 h

theorem symlink_bit (m : UInt32) : m &&& ModeSymlink ≠ 0 ↔ m.toNat.testBit 27 = true := by
  have h : (m &&& ModeSymlink).toNat = if m.toNat.testBit 27 then 2 ^ 27 else 0 := by
    rw [UInt32.toNat_and, show ModeSymlink.toNat = 2 ^ 27 from by decide, nat_and_two_pow]
  cases hb : m.toNat.testBit 27 with
  | true =>
    rw [hb] at h
    simp only [iff_true]
    intro h0
    rw [h0] at h
    cases h
  | false =>
    rw [hb] at h
    simp only [Bool.false_eq_true, iff_false, ne_eq, Classical.not_not]
    exact UInt32.toNat_inj.1 h

theorem isQidOf (fi : FileInfo) : IsQidOf fi (fileInfoToQID fi) := by
  refine ⟨fun ino h => by simp [fileInfoToQID, h], qid_version fi, ?_⟩
  show (dirToQIDType fi).toNat = _
  unfold dirToQIDType
  rw [isDir_bit]
  dsimp only
  by_cases h : fi.mode &&& ModeSymlink ≠ 0
  · rw [if_pos h, if_pos ((symlink_bit _).1 h)]
    cases fi.mode.toNat.testBit 31 <;> rfl
  · rw [if_neg h, if_neg (mt (symlink_bit _).2 h)]
    cases fi.mode.toNat.testBit 31 <;> rfl

/-- the QID of a file that the host reported -/
def GoodQid (q : QID) : Prop := ∃ fi, Reported host fi ∧ IsQidOf fi q

theorem reported_lstat {p : GoString} {w w' : ω} {st : FileInfo} (h : host.lstat p w = (w', .ok st)) : GoodQid host (fileInfoToQID st) :=
  ⟨st, ⟨p, w, .inl (by rw [h])⟩, isQidOf st⟩

theorem told_good {m : TMsg} {s s' : State ω H} {r : RMsg} (hf : ∀ i f, s.files i = some f → GoodQid host f.qid)
    (h : call (ufs host user) m s = .ok s' r) : ∀ q ∈ qidsTold r, GoodQid host q := by
  have ok_of : ∀ {α : Type} (g : α → RMsg) (x : NRes (State ω H) α), mapRes g x = .ok s' r → ∃ a, x = .ok s' a ∧ r = g a := by
    intro α g x hx
    cases x with
    | panic => cases hx
    | err => cases hx
    | ok y a => cases hx; exact ⟨a, rfl, rfl⟩
  cases m with
  | attach p =>
    simp only [call] at h
    obtain ⟨q, h1, rfl⟩ := ok_of _ _ h
    have h1 : rattach host p.SFID p.AFID p.Uname p.Aname s = .ok s' q := h1
    unfold rattach at h1
    split at h1
    · cases h1
    · dsimp only at h1
      generalize hst : host.stat _ s.world = x at h1
      obtain ⟨w, x⟩ := x
      cases x with
      | error e => cases h1
      | ok st =>
        cases h1
        intro q hq
        simp only [qidsTold, List.mem_singleton] at hq
        subst hq
        exact ⟨st, ⟨_, _, .inr (by rw [hst])⟩, isQidOf st⟩
  | walk p =>
    simp only [call] at h
    obtain ⟨q, h1, rfl⟩ := ok_of _ _ h
    have h1 : rwalk host p.SFID p.NewFID p.Paths s = .ok s' q := h1
    unfold rwalk at h1
    split at h1
    · cases h1
    · rename_i f hf
      split at h1
      · split at h1
        · cases h1
        · cases h1; intro q hq; simp [qidsTold] at hq
      · have hw := (walkLoop_spec host f.fullName s.world p.Paths).2.1
        generalize walkLoop host f.fullName s.world p.Paths = y at h1 hw
        obtain ⟨w, qs, y⟩ := y
        have key : ∀ q ∈ qs, GoodQid host q := by
          intro q hq
          obtain ⟨i, hi⟩ := List.mem_iff_getElem?.1 hq
          obtain ⟨st, h1, rfl⟩ := hw i q hi
          exact ⟨st, ⟨_, _, .inl h1⟩, isQidOf st⟩
        cases y with
        | none =>
          dsimp only at h1
          split at h1
          · cases h1
          · cases h1; exact key
        | some pth =>
          dsimp only at h1
          split at h1
          · cases h1
          · cases h1; exact key
  | open_ p =>
    simp only [call] at h
    obtain ⟨q, h1, rfl⟩ := ok_of _ _ h
    have h1 : ropen host p.OFID p.Omode s = .ok s' q := h1
    unfold ropen at h1
    split at h1
    · cases h1
    · rename_i f hfile
      generalize host.openFile f.fullName _ _ _ = x at h1
      obtain ⟨w, x⟩ := x
      cases x with
      | error e => cases h1
      | ok st =>
        cases h1
        intro q hq
        simp only [qidsTold, List.mem_singleton] at hq
        subst hq
        exact hf _ _ hfile
  | create p =>
    simp only [call] at h
    obtain ⟨q, h1, rfl⟩ := ok_of _ _ h
    have h1 : rcreate host p.OFID p.Name p.CreatePerm p.Omode s = .ok s' q := h1
    unfold rcreate at h1
    split at h1
    · cases h1
    · split at h1
      · cases h1
      · dsimp only at h1
        split at h1
        · generalize hst : host.lstat _ _ = x at h1
          obtain ⟨w, x⟩ := x
          cases x with
          | error e => cases h1
          | ok st =>
            cases h1
            intro q hq
            simp only [qidsTold, List.mem_singleton] at hq
            subst hq
            exact reported_lstat host hst
        · generalize host.openFile _ _ _ _ = x at h1
          obtain ⟨w, x⟩ := x
          cases x with
          | error e => cases h1
          | ok hd =>
            dsimp only at h1
            generalize hst : host.lstat _ _ = x at h1
            obtain ⟨w, x⟩ := x
            cases x with
            | error e => cases h1
            | ok st =>
              cases h1
              intro q hq
              simp only [qidsTold, List.mem_singleton] at hq
              subst hq
              exact reported_lstat host hst
  | _ =>
    simp only [call] at h
    obtain ⟨a, h1, rfl⟩ := ok_of _ _ h
    intro q hq
    simp [qidsTold] at hq

theorem learn_good {e : Event} {G : QID → Prop} {k : FID → Option Known} (hk : ∀ i x, k i = some x → G x.qid)
    (he : ∀ r, e.rep = .ok r → ∀ q ∈ qidsTold r, G q) : ∀ i x, e.learn k i = some x → G x.qid := by
  intro i x hx
  obtain ⟨m, a⟩ := e
  unfold Event.learn at hx
  dsimp only at hx he
  split at hx
  · rename_i r
    split at hx
    · cases hx; exact he _ rfl _ (by simp [qidsTold])
    · exact hk i x hx
  · rename_i r
    split at hx
    · split at hx
      · rename_i q hq
        cases hx
        exact he _ rfl _ (List.mem_of_getLast? hq)
      · exact hk _ x hx
    · exact hk i x hx
  · split at hx
    · cases h : k i with
      | none => rw [h] at hx; cases hx
      | some y => rw [h] at hx; cases hx; exact hk i y h
    · exact hk i x hx
  · split at hx
    · cases h : k i with
      | none => rw [h] at hx; cases hx
      | some y => rw [h] at hx; cases hx; exact hk i y h
    · exact hk i x hx
  · split at hx
    · cases hx; exact he _ rfl _ (by simp [qidsTold])
    · exact hk i x hx
  · split at hx
    · cases hx
    · exact hk i x hx
  · split at hx
    · cases hx
    · exact hk i x hx
  · exact hk i x hx

/-- **C77** Every QID that any reply ever tells, of an attach, a walk, an open or a create, is that of a file the
host reported: its path is the inode number, its version the modification time, and its type bits say
whether the file is a directory and whether it is a symbolic link. -/
theorem C77_qids {s s' : State ω H} {h : List Event} (hs : ∀ i f, s.files i = some f → GoodQid host f.qid)
    (hh : Hist host user AnyReq AnyWorld s h s') :
    ∀ e ∈ h, ∀ r, e.rep = .ok r → ∀ q ∈ qidsTold r, ∃ fi, Reported host fi ∧ IsQidOf fi q := by
  induction hh with
  | nil s => intro e he; simp at he
  | @ok s m s1 r h s' hp hc _ ih =>
    have h1 := told_good host user hs hc
    have h2 : ∀ i f, s1.files i = some f → GoodQid host f.qid := by
      intro i f hf
      have hl := event_known host user (m := m) (s := s) (s' := s1) (a := .ok r) (by rw [hc]; rfl) (by rw [hc]; rfl) i
      refine learn_good (G := GoodQid host) (e := ⟨m, .ok r⟩) (k := fun j => (s.files j).map File.known) ?_ ?_ i f.known ?_
      · intro j x hx
        cases hj : s.files j with
        | none => rw [hj] at hx; cases hx
        | some g => rw [hj] at hx; cases hx; exact hs j g hj
      · intro r' hr'; cases hr'; exact h1
      · rw [← hl, hf]; rfl
    intro e he
    rcases List.mem_cons.1 he with rfl | he
    · intro r' hr'; cases hr'; exact h1
    · exact ih h2 e he
  | @err s m s1 x h s' hp hc _ ih =>
    have h2 : ∀ i f, s1.files i = some f → GoodQid host f.qid := by
      intro i f hf
      have hl := event_known host user (m := m) (s := s) (s' := s1) (a := .error x) (by rw [hc]; rfl) (by rw [hc]; rfl) i
      refine learn_good (G := GoodQid host) (e := ⟨m, .error x⟩) (k := fun j => (s.files j).map File.known) ?_ ?_ i f.known ?_
      · intro j x hx
        cases hj : s.files j with
        | none => rw [hj] at hx; cases hx
        | some g => rw [hj] at hx; cases hx; exact hs j g hj
      · intro r' hr'; cases hr'
      · rw [← hl, hf]; rfl
    intro e he
    rcases List.mem_cons.1 he with rfl | he
    · intro r' hr'; cases hr'
    · exact ih h2 e he
  | other w _ _ ih => exact ih hs

/-- C77 from the start of a connection -/
theorem C77_qids_from_start {root : GoString} {w : ω} {s' : State ω H} {h : List Event}
    (hh : Hist host user AnyReq AnyWorld (newFS root w) h s') :
    ∀ e ∈ h, ∀ r, e.rep = .ok r → ∀ q ∈ qidsTold r, ∃ fi, Reported host fi ∧ IsQidOf fi q :=
  C77_qids host user (fun i f h => by cases h) hh

/-- **C77** QIDs tell files apart: QIDs of two files that have inode numbers have the same path exactly if the
inode numbers are the same. -/
theorem C77_distinct {fi fi' : FileInfo} {q q' : QID} (h : IsQidOf fi q) (h' : IsQidOf fi' q') {i i' : UInt64}
    (hi : fi.sys = some i) (hi' : fi'.sys = some i') : q.Path = q'.Path ↔ i = i' := by
  rw [h.1 i hi, h'.1 i' hi']

/-- **C78, partial** The version in the QID of a file changes with its modification time if that changes by at
least a millisecond, and by less than 49 days.  Missing: smaller and larger changes (`C78_counterexample`). -/
theorem C78_version_partial {fi fi' : FileInfo} {q q' : QID} (h : IsQidOf fi q) (h' : IsQidOf fi' q')
    (h0 : 0 ≤ fi.modTime.sec) (hlt : fi'.modTime.sec * 1000000000 + fi'.modTime.nsec < 2 ^ 63) (hn : fi.modTime.nsec < 1000000000)
    (h1 : 1000000 ≤ (fi'.modTime.sec - fi.modTime.sec) * 1000000000 + (fi'.modTime.nsec - fi.modTime.nsec : Int))
    (h2 : (fi'.modTime.sec - fi.modTime.sec) * 1000000000 + (fi'.modTime.nsec - fi.modTime.nsec : Int) ≤ 49 * 86400 * 1000000000)
    (hn' : fi'.modTime.nsec < 1000000000) : q.Version ≠ q'.Version := by
  intro he
  have a := h.2.1 h0 (by omega)
  have b := h'.2.1 (by omega) hlt
  rw [he, b] at a
  unfold Time.ms at a
  omega

/-- **C78 is false**: a change within the same millisecond, and one after 2^32 milliseconds, leave the QID as
it was. -/
theorem C78_counterexample :
    let fi : FileInfo := { name := [102], size := 1, mode := 0, modTime := ⟨1000, 5⟩, sys := some 3 }
    fileInfoToQID fi = fileInfoToQID { fi with modTime := ⟨1000, 999999⟩, size := 2 } ∧
    fileInfoToQID fi = fileInfoToQID { fi with modTime := ⟨1000 + 4294967, 296000005⟩ } := by
  exact ⟨rfl, rfl⟩

end
end Ninep.Ufs

namespace Ninep.Ufs.Mem
open Spec

/-- C68: the bound is reached, and a short file stays below it. -/
example : (runAll [attach0, walk1, open1, .read { OFID := 1, Off := 0, Len := 3 },
      .read { OFID := 1, Off := 3, Len := 3 }] demo).1.drop 3 =
    [some (.ok (.read ⟨[1, 2, 3]⟩)), some (.ok (.read ⟨[4]⟩))] := rfl

/-- C69: a history in which a fid is attached, one walked to, opened and cloned. -/
example : ∃ h s', Hist host [103] AnyReq AnyWorld demo h s' ∧
    known h 0 = some ⟨{ Typ := 128, Version := 1000000, Path := 1 }, false⟩ ∧
    known h 1 = some ⟨{ Typ := 0, Version := 1000000, Path := 3 }, true⟩ ∧
    known h 2 = some ⟨{ Typ := 0, Version := 1000000, Path := 3 }, true⟩ ∧ known h 3 = none :=
  ⟨[⟨attach0, .ok (.attach { QID := { Typ := 128, Version := 1000000, Path := 1 } })⟩,
    ⟨walk1, .ok (.walk { QIDs := [{ Typ := 0, Version := 1000000, Path := 3 }] })⟩,
    ⟨open1, .ok (.open_ { OQID := { Typ := 0, Version := 1000000, Path := 3 }, IOUnit := 8192 })⟩,
    ⟨.walk { SFID := 1, NewFID := 2 }, .ok (.walk { QIDs := [] })⟩], _,
   .ok trivial rfl (.ok trivial rfl (.ok trivial rfl (.ok trivial rfl (.nil _)))), rfl, rfl, rfl, rfl⟩

/-- C77: the history above tells QIDs, of a directory and of a plain file, and the host reports these files. -/
example : qidsTold (.walk { QIDs := [{ Typ := 0, Version := 1000000, Path := 3 }] }) ≠ [] ∧
    Reported host { name := [102], size := 4, mode := 420, modTime := ⟨1000, 0⟩, sys := some 3 } ∧
    IsQidOf { name := [102], size := 4, mode := 420, modTime := ⟨1000, 0⟩, sys := some 3 } { Typ := 0, Version := 1000000, Path := 3 } :=
  ⟨by decide, ⟨[47, 120, 47, 102], demo.world, .inl rfl⟩, isQidOf { name := [102], size := 4, mode := 420, modTime := ⟨1000, 0⟩, sys := some 3 }⟩

/-- C78: a change after one second -/
example : ∃ q q', IsQidOf { name := [102], size := 4, mode := 420, modTime := ⟨1000, 0⟩, sys := some 3 } q ∧
    IsQidOf { name := [102], size := 4, mode := 420, modTime := ⟨1001, 0⟩, sys := some 3 } q' ∧ q.Version ≠ q'.Version :=
  ⟨_, _, isQidOf _, isQidOf _, C78_version_partial (isQidOf _) (isQidOf _) (by decide) (by decide) (by decide) (by decide) (by decide) (by decide)⟩

/-- **C71 is false**: an attach takes a fid that is in use, and even open, away from its file without an
error.  (The open file is never closed, see C60.) -/
theorem C71_counterexample :
    let s := (runAll [attach0, walk1, open1] demo).2
    (s.files 1).map (·.fullName) = some [47, 120, 47, 102] ∧ (s.files 1).map (·.file.isSome) = some true ∧
    ∃ s' q, call (ufs host [103]) (.attach { SFID := 1, AFID := 0xFFFFFFFF }) s = .ok s' (.attach ⟨q⟩) ∧
      (s'.files 1).map (·.fullName) = some [47, 120] ∧ (s'.files 1).map (·.file.isSome) = some false :=
  ⟨rfl, rfl, _, _, rfl, rfl, rfl⟩

/-- **C72 is false**: an open fid can be opened again, here first for reading and then for writing. -/
theorem C72_counterexample :
    let s := (runAll [attach0, walk1, .open_ { OFID := 1, Omode := 0 }] demo).2
    (s.files 1).map (·.file.isSome) = some true ∧
    ∃ s' r, call (ufs host [103]) (.open_ { OFID := 1, Omode := 1 }) s = .ok s' r ∧ (s'.files 1).map (·.file) = some (some 1) :=
  ⟨rfl, _, _, rfl, rfl⟩

/-- **C74 is false**: after a Tversion the fids of the old session are still there, open files included. -/
theorem C74_counterexample :
    (runAll [attach0, walk1, open1, .version { TMsize := 8192, TVersion := lit "9P2000" },
      .read { OFID := 1, Off := 0, Len := 2 }] demo).1.drop 3 =
    [some (.ok (.version { RMsize := 8192, RVersion := lit "9P2000" })), some (.ok (.read ⟨[1, 2]⟩))] := rfl

/-- **C75 is false**: after the size 12 was agreed on, a read is answered with a packet of 13 bytes, and a
stat with a much longer one. -/
theorem C75_counterexample :
    ∃ s r r', runAll [.version { TMsize := 12, TVersion := lit "9P2000" }, attach0, walk1, open1,
        .read { OFID := 1, Off := 0, Len := 2 }, .stat { OFID := 1 }] demo =
      ([some (.ok (.version { RMsize := 12, RVersion := lit "9P2000" })),
        some (.ok (.attach { QID := { Typ := 128, Version := 1000000, Path := 1 } })),
        some (.ok (.walk { QIDs := [{ Typ := 0, Version := 1000000, Path := 3 }] })),
        some (.ok (.open_ { OQID := { Typ := 0, Version := 1000000, Path := 3 }, IOUnit := 8192 })), some (.ok r), some (.ok r')], s) ∧
      (r.packet 1).length = 13 ∧ 12 < (r'.packet 1).length :=
  ⟨_, _, _, rfl, by decide, by decide⟩

end Ninep.Ufs.Mem
