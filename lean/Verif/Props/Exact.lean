import Verif.Props.UfsData
import Verif.Props.UfsMore
import Verif.Props.Server
import Verif.Props.Client

/-!
# The false properties, exactly

C20, C21, C31, C53 and C78 are false of this code.  The theorems here say exactly how far they hold, so that
together with the counterexamples nothing is left open: what a connection does under any segmentation (C20),
what may be executed of a request that is cut off (C21), when the receiver of the client panics (C31), which
entries a listing yields for any count (C53), and when two modification times give the same version (C78).
-/

namespace Ninep
open Spec

variable {σ : Type}

/-- a cut inside the 7 byte header of a packet: the complete packets of `a` are followed by 1 to 6 bytes -/
def CutsHeader (a : List Bytes) : Prop := 0 < (frames a.flatten).2.length ∧ (frames a.flatten).2.length < 7

theorem readBody_more (n : Nat) (a b : List Bytes) (h : n ≤ a.flatten.length) :
    readBody n (a ++ b) = ((readBody n a).1, (readBody n a).2.1 ++ b, true) := by
  induction a generalizing n with
  | nil =>
    cases n with
    | zero => simp [readBody]
    | succ n => simp at h
  | cons seg a ih =>
    cases n with
    | zero => simp [readBody]
    | succ n =>
      rw [List.cons_append, readBody, readBody]
      by_cases hs : n + 1 ≤ seg.length
      · rw [if_pos hs, if_pos hs]
        unfold pushSeg
        split <;> simp
      · rw [if_neg hs, if_neg hs]
        simp only [List.flatten_cons, List.length_append] at h
        rw [ih _ (by omega)]

theorem readHdr_more {a b rest : List Bytes} {l : Bytes} (h : readHdr a = some (l, rest)) :
    readHdr (a ++ b) = some (l, rest ++ b) := by
  cases a with
  | nil => cases h
  | cons seg a =>
    rw [List.cons_append, readHdr]
    rw [readHdr] at h
    split at h
    · cases h
    · rename_i hl
      rw [if_neg hl]
      cases h
      unfold pushSeg
      split <;> simp

/-- what is read when a header is cut: the packets before it -/
theorem reads_cut (fin : StreamEnd) (a b : List Bytes) (ha : Aligned a) (hc : CutsHeader a) :
    reads fin (a ++ b) = ((frames a.flatten).1, .header) := by
  induction hn : total a using Nat.strongRecOn generalizing a with
  | ind n ih =>
    unfold CutsHeader at hc
    by_cases h7 : a.flatten.length < 7
    · have hf : frames a.flatten = ([], a.flatten) := frames_short (by have := pktLen_ge a.flatten; omega)
      rw [hf] at hc ⊢
      apply reads_none
      cases a with
      | nil => simp at hc
      | cons seg a =>
        rw [List.cons_append, readHdr, if_pos]
        simp only [List.flatten_cons, List.length_append] at h7
        omega
    · obtain ⟨l, rest, hh⟩ := aligned_hdr ha (by omega)
      have hp : pktLen a.flatten ≤ a.flatten.length := by
        apply Classical.byContradiction
        intro hlt
        rw [frames_short (by omega)] at hc
        dsimp only at hc
        omega
      have h1 := readHdr_total hh
      have h2 := readBody_total (hdrSize l - 7) rest
      obtain ⟨e1, e2, e3⟩ := readHdr_eq hh
      have hn' : hdrSize l - 7 ≤ rest.flatten.length := by
        have : pktLen a.flatten = max 7 (hdrSize l) := by rw [e1, hdrSize_eq (by omega)]; rfl
        rw [e2, List.length_drop]; omega
      rcases reads_step (fin := fin) hh with ⟨hl, hf, hr⟩ | ⟨hl, -⟩ | ⟨hl, -⟩
      · rw [frames_long hp] at hc ⊢
        rw [← hf] at hc ⊢
        have ih' := ih (total (readBody (hdrSize l - 7) rest).2.1) (by omega) _ (aligned_rest ha hh hl) hc rfl
        rw [reads_some (readHdr_more hh), readBody_more _ _ _ hn']
        dsimp only
        rw [if_neg (by simp), ih']
        rw [reads_some hh] at hr
        rw [if_neg (by rw [(readBody_eq _ _).2.2.2 hn']; simp)] at hr
        simp only [Prod.mk.injEq, List.cons.injEq] at hr
        have e := hr.1.1
        simp only [e]
      · omega
      · omega

/-- Every segmentation either leaves all headers whole, or has a first cut through a header. -/
theorem C20_first_cut (segs : List Bytes) (hne : ∀ x ∈ segs, x ≠ []) :
    Aligned segs ∨ ∃ a b, segs = a ++ b ∧ b ≠ [] ∧ Aligned a ∧ CutsHeader a := by
  suffices H : ∀ n, ∀ segs : List Bytes, segs.length = n → (∀ x ∈ segs, x ≠ []) →
      Aligned segs ∨ ∃ a b, segs = a ++ b ∧ b ≠ [] ∧ Aligned a ∧ CutsHeader a from H _ segs rfl hne
  intro n
  induction n with
  | zero =>
    intro segs hl _
    have : segs = [] := List.eq_nil_of_length_eq_zero hl
    subst this
    left
    refine ⟨by simp, fun a b h hb => ?_⟩
    simp at h
    exact absurd h.2 hb
  | succ n ih =>
    intro segs hl hne
    rcases List.eq_nil_or_concat segs with rfl | ⟨xs, x, rfl⟩
    · simp at hl
    · simp only [List.concat_eq_append] at *
      rcases ih xs (by simpa using hl) (fun y hy => hne y (by simp [hy])) with h | ⟨a, b, rfl, hb, h1, h2⟩
      · by_cases hc : CutsHeader xs
        · exact .inr ⟨xs, [x], rfl, by simp, h, hc⟩
        · left
          refine ⟨hne, fun a b hab hb => ?_⟩
          rcases List.eq_nil_or_concat b with rfl | ⟨b', y, rfl⟩
          · exact absurd rfl hb
          · simp only [List.concat_eq_append] at hab
            rw [← List.append_assoc] at hab
            obtain ⟨hx, -⟩ := List.append_inj' hab rfl
            by_cases hb' : b' = []
            · subst hb'
              rw [List.append_nil] at hx
              subst hx
              unfold CutsHeader at hc
              by_cases h0 : (frames xs.flatten).2 = []
              · exact .inl h0
              · right
                have := List.length_pos_iff.2 h0
                omega
            · exact h.2 a b' hx hb'
      · exact .inr ⟨a, b ++ [x], by simp, by simp, h1, h2⟩

/-- **C20**, exactly: under any segmentation a connection does what it would do for a segmentation that leaves
the headers whole, of the stream up to the first cut through a header; it reads all complete packets before
that cut and then drops the connection.  Everything behind the cut is lost. -/
theorem C20_exact_partial (ns : NineServer σ) (spare : Nat → Bytes) (wfail : Nat → Bool) (fin : StreamEnd)
    (k : Nat) (s : Server σ) (a b : List Bytes) (ha : Aligned a) (hc : CutsHeader a) :
    serve ns spare wfail fin k s (a ++ b) = serve ns spare wfail fin k s a ∧
    (serve ns spare wfail fin k s (a ++ b)).execd <+: (frames a.flatten).1 ∧
    ∀ b', serve ns spare wfail fin k s (a ++ b) = serve ns spare wfail fin k s (a ++ b') := by
  have h (b : List Bytes) := reads_cut fin a b ha hc
  refine ⟨?_, ?_, fun b' => ?_⟩
  · have h0 := h []
    rw [List.append_nil] at h0
    rw [serve_eq, serve_eq, h b, h0]
  · rw [serve_eq, h b]
    exact process_prefix ns spare wfail k s _ _
  · rw [serve_eq, serve_eq, h b, h b']

/-- C20: two Tclunk requests, the header of the second cut after three bytes -/
example : Aligned [[11, 0, 0, 0, 120, 1, 0, 5, 0, 0, 0, 11, 0, 0]] ∧
    CutsHeader [[11, 0, 0, 0, 120, 1, 0, 5, 0, 0, 0, 11, 0, 0]] := by
  refine ⟨aligned_single (by simp), ?_⟩
  unfold CutsHeader
  rw [frames_long (by decide), frames_short (by decide)]
  decide

/-- **C21**, exactly: whatever arrives in whatever segments, only complete packets are executed and, if the peer
closes the connection inside the body of the last one, at most what there is of that one. -/
theorem C21_exact_partial (ns : NineServer σ) (spare : Nat → Bytes) (wfail : Nat → Bool)
    (fin : StreamEnd) (k : Nat) (s : Server σ) (segs : List Bytes) :
    let r := serve ns spare wfail fin k s segs
    let x := (frames segs.flatten).2
    r.execd <+: (frames segs.flatten).1 ∨
    (fin = .eof ∧ 7 ≤ x.length ∧ r.execd = (frames segs.flatten).1 ++ [(x.getD 4 0, x.drop 5)]) := by
  intro r x
  have hp : r.execd <+: (readable fin segs.flatten).1 := by
    show (serve ns spare wfail fin k s segs).execd <+: _
    rw [serve_eq]
    exact (process_prefix ns spare wfail k s _ _).trans (reads_prefix fin segs)
  unfold readable at hp
  by_cases hl : (frames segs.flatten).2.length < 7
  · rw [if_pos hl] at hp; exact .inl hp
  · rw [if_neg hl] at hp
    cases fin with
    | error => rw [if_pos rfl] at hp; exact .inl hp
    | eof =>
      rw [if_neg (by simp)] at hp
      rcases List.prefix_concat_iff.1 hp with h | h
      · exact .inr ⟨rfl, by show 7 ≤ (frames segs.flatten).2.length; omega, h⟩
      · exact .inl h

end Ninep

namespace Ninep.Client
open Spec

/-- **C31**, exactly: when the receiver holds a packet, the client panics at the next step of the receiver if and
only if the tag is 0, or 65535, or its slot in the table of requests is empty; no other goroutine can panic. -/
theorem C31_exact_partial (s : State) (r : Reply) (hr : s.recv = .got r) :
    ((∃ l s', Step true l s s' ∧ s'.recv = .panicked) ↔
      (pktTag r.bytes).toNat = 0 ∨ (pktTag r.bytes).toNat = 65535 ∨ s.rpc ((pktTag r.bytes).toNat - 1) = none) ∧
    (∀ l s', Step true l s s' → s'.recv ≠ .panicked → s'.recv = s.recv ∨ ∃ c, s'.recv = .found c (pktTag r.bytes) r.bytes) := by
  have hlt := (pktTag r.bytes).toNat_lt
  have hp : lookup true s.rpc r.bytes = .panicked ↔
      (pktTag r.bytes).toNat = 0 ∨ (pktTag r.bytes).toNat = 65535 ∨ s.rpc ((pktTag r.bytes).toNat - 1) = none := by
    by_cases h0 : (pktTag r.bytes).toNat = 0 ∨ (pktTag r.bytes).toNat = 65535
    · have : lookup true s.rpc r.bytes = .panicked := by
        unfold lookup
        dsimp only
        rcases h0 with h0 | h0
        · rw [if_pos (by rw [UInt16.lt_iff_toNat_lt, h0]; decide)]
        · rw [if_neg (by rw [UInt16.lt_iff_toNat_lt, h0]; decide), if_pos (by rw [h0]; decide)]
      rw [this]
      simp only [true_iff]
      rcases h0 with h0 | h0
      · exact .inl h0
      · exact .inr (.inl h0)
    · constructor
      · intro h
        refine .inr (.inr ?_)
        cases hn : s.rpc ((pktTag r.bytes).toNat - 1) with
        | none => rfl
        | some d =>
          rw [lookup_found (b := r.bytes) (by unfold Legal; omega) hn] at h
          cases h
      · rintro (h | h | h)
        · exact absurd (.inl h) h0
        · exact absurd (.inr h) h0
        · exact lookup_none h
  refine ⟨⟨?_, fun h => ⟨.client, _, Step.lookup s r hr, hp.2 h⟩⟩, ?_⟩
  · rintro ⟨l, s', hs, hpan⟩
    cases hs with
    | call | getTag | enqueue | takeReq | takeTag | putTag | store | write | reply | junk | close | read | readEOF =>
      first | (dsimp only at hpan; rw [hr] at hpan; cases hpan) | (rw [hr] at hpan; cases hpan)
    | handOver | deliver | retag => simp at hpan
    | handOverNil _ h1 h => rw [hr] at h; cases h
    | lookup _ r' hr' =>
      rw [hr] at hr'
      cases hr'
      exact hp.1 hpan
  · intro l s' hs hpan
    cases hs with
    | call | getTag | enqueue | takeReq | takeTag | putTag | store | write | reply | junk | close | read | readEOF =>
      exact .inl rfl
    | handOver _ r' h1 h => rw [hr] at h; cases h
    | handOverNil _ h1 h => rw [hr] at h; cases h
    | deliver _ c t b h => rw [hr] at h; cases h
    | retag _ t h => rw [hr] at h; cases h
    | lookup _ r' hr' =>
      rw [hr] at hr'
      cases hr'
      right
      dsimp only at hpan ⊢
      rw [Ne, hp] at hpan
      obtain ⟨d, hd⟩ := Option.ne_none_iff_exists'.1 (fun h => hpan (.inr (.inr h)))
      have h0 : ¬ (pktTag r.bytes).toNat = 0 := fun h => hpan (.inl h)
      have h1 : ¬ (pktTag r.bytes).toNat = 65535 := fun h => hpan (.inr (.inl h))
      exact ⟨d, lookup_found (by unfold Legal; omega) hd⟩

end Ninep.Client

namespace Ninep.Ufs
open Spec

section
variable {ω H : Type} (host : Host ω H) (user : GoString)

/-- the entries that a listing with count `c` gets: all up to the first whose record is too long -/
def fitting (c : Count) (l : List FileInfo) : List FileInfo :=
  l.takeWhile fun fi => decide (((record user fi).length : Int) ≤ c.toInt)

theorem takeWhile_self {c : Count} (l : List FileInfo) :
    fitting user c l = l ↔ ∀ fi ∈ l, ((record user fi).length : Int) ≤ c.toInt := by
  unfold fitting
  induction l with
  | nil => simp
  | cons a l ih =>
    rw [List.takeWhile_cons]
    by_cases h : ((record user a).length : Int) ≤ c.toInt
    · simp [h, ih]
    · simp [h]

theorem listDir_rest_exact (V : DirView host) {fid : FID} {c : Count} {f : File H} {h : H} {l : List FileInfo}
    (hh : f.file = some h) (hq : f.qid.Typ &&& QTDIR ≠ 0) (hfl : f.oflow = []) (hc : 0 ≤ c.toInt) :
    ∀ (fuel : Nat) (o : Offset) (s : State ω H) (ds : List Bytes), s.files fid = some f → V.listing h s.world = some l →
    o ≠ 0 → o.toNat + ((fitting user c (V.rest h s.world)).map fun fi => (record user fi).length).sum < 2 ^ 64 →
    listDir host user fid c fuel o s = some ds → ds = (fitting user c (V.rest h s.world)).map (record user) := by
  intro fuel
  induction fuel with
  | zero => intro o s ds _ _ _ _ h; cases h
  | succ fuel ih =>
    intro o s ds hf hl ho hsum hd
    unfold listDir at hd
    cases hr : (ufs host user).Rread fid o c s with
    | panic => rw [hr] at hd; cases hd
    | err s' e => rw [hr] at hd; cases hd
    | ok s' d =>
      rw [hr] at hd
      obtain ⟨h1, h2, h3, h4⟩ := C53_next host user V hf hh hq hfl ho hl hc hr
      dsimp only at hd
      cases hrest : V.rest h s.world with
      | nil =>
        rw [hrest] at h1
        have : d = [] := h1
        rw [if_pos this] at hd
        exact (Option.some.inj hd).symm
      | cons fi t =>
        rw [hrest] at h1 h3 hsum
        by_cases hle : ((record user fi).length : Int) ≤ c.toInt
        · have h1 : d = record user fi := by rw [h1]; simp [nextRecord, hle]
          subst h1
          rw [if_neg (record_ne_nil user fi)] at hd
          simp only [Option.map_eq_some_iff] at hd
          obtain ⟨ds', hds', rfl⟩ := hd
          have hft : fitting user c (fi :: t) = fi :: fitting user c t := by simp [fitting, hle]
          rw [hft] at hsum ⊢
          simp only [List.map_cons, List.sum_cons] at hsum
          have hlen : 0 < (record user fi).length := List.length_pos_iff.2 (record_ne_nil user fi)
          have hadd : (o + UInt64.ofNat (record user fi).length).toNat = o.toNat + (record user fi).length := by
            rw [UInt64.toNat_add, UInt64.toNat_ofNat_of_lt' (by have : UInt64.size = 2 ^ 64 := rfl; omega), Nat.mod_eq_of_lt (by omega)]
          have := ih (o + UInt64.ofNat (record user fi).length) s' ds' h4 h2
            (by intro h0; rw [h0] at hadd; simp at hadd; omega)
            (by rw [h3, hadd]; simp only [List.tail_cons]; omega) hds'
          rw [this, h3]
          rfl
        · have h1 : d = [] := by rw [h1]; simp [nextRecord, hle]
          rw [if_pos h1] at hd
          have hft : fitting user c (fi :: t) = [] := by simp [fitting, hle]
          rw [hft]
          exact (Option.some.inj hd).symm

/-- **C53**, exactly: for any count, a listing yields the entries of the directory in order, each once, up to the
first whose record is longer than the count. -/
theorem C53_exact_partial (V : DirView host) {fid : FID} {c : Count} {s : State ω H} {f : File H} {h : H}
    {l : List FileInfo} {fuel : Nat} {ds : List Bytes} (hf : s.files fid = some f) (hh : f.file = some h)
    (hq : f.qid.Typ &&& QTDIR ≠ 0) (hl : V.listing h s.world = some l) (hc : 0 ≤ c.toInt)
    (hsum : (l.map fun fi => (record user fi).length).sum < 2 ^ 64)
    (hd : listDir host user fid c fuel 0 s = some ds) :
    ds = (fitting user c l).map (record user) ∧
    (ds = l.map (record user) ↔ ∀ fi ∈ l, ((record user fi).length : Int) ≤ c.toInt) := by
  have hle : ∀ (k : List FileInfo), ((fitting user c k).map fun fi => (record user fi).length).sum ≤
      (k.map fun fi => (record user fi).length).sum := by
    intro k
    induction k with
    | nil => simp [fitting]
    | cons a k ih =>
      unfold fitting at ih ⊢
      rw [List.takeWhile_cons]
      split
      · simp only [List.map_cons, List.sum_cons]; omega
      · simp
  have key : ds = (fitting user c l).map (record user) := by
    cases fuel with
    | zero => cases hd
    | succ fuel =>
      unfold listDir at hd
      cases hr : (ufs host user).Rread fid 0 c s with
      | panic => rw [hr] at hd; cases hd
      | err s' e => rw [hr] at hd; cases hd
      | ok s' d =>
        rw [hr] at hd
        obtain ⟨h1, h2, h3, h4⟩ := C54_restart host user V hf hh hq hl hc hr
        dsimp only at hd
        cases l with
        | nil =>
          have : d = [] := h1
          rw [if_pos this] at hd
          exact (Option.some.inj hd).symm
        | cons fi t =>
          by_cases hfi : ((record user fi).length : Int) ≤ c.toInt
          · have h1 : d = record user fi := by rw [h1]; simp [nextRecord, hfi]
            subst h1
            rw [if_neg (record_ne_nil user fi)] at hd
            simp only [Option.map_eq_some_iff] at hd
            obtain ⟨ds', hds', rfl⟩ := hd
            have hft : fitting user c (fi :: t) = fi :: fitting user c t := by simp [fitting, hfi]
            have hs2 := hle t
            simp only [List.map_cons, List.sum_cons] at hsum
            have hlen : 0 < (record user fi).length := List.length_pos_iff.2 (record_ne_nil user fi)
            have hadd : ((0 : UInt64) + UInt64.ofNat (record user fi).length).toNat = (record user fi).length := by
              rw [UInt64.toNat_add, UInt64.toNat_ofNat_of_lt' (by have : UInt64.size = 2 ^ 64 := rfl; omega)]
              simp; omega
            have := listDir_rest_exact host user V (f := { f with oflow := [] }) (l := fi :: t) hh hq rfl hc fuel _ s' ds' h4 h2
              (by intro h0; rw [h0] at hadd; simp at hadd; omega)
              (by rw [h3, hadd]; simp only [List.tail_cons]; omega) hds'
            rw [this, h3, hft]
            rfl
          · have h1 : d = [] := by rw [h1]; simp [nextRecord, hfi]
            rw [if_pos h1] at hd
            have hft : fitting user c (fi :: t) = [] := by simp [fitting, hfi]
            rw [hft]
            exact (Option.some.inj hd).symm
  refine ⟨key, fun he => ?_, fun hfit => ?_⟩
  · have hlen : (fitting user c l).length = l.length := by
      have := congrArg List.length (key.symm.trans he)
      simpa using this
    have heq : fitting user c l = l := (List.takeWhile_prefix _).eq_of_length hlen
    exact (takeWhile_self user l).1 heq
  · rw [key]
    congr 1
    exact (takeWhile_self user l).2 hfit

/-- **C78**, exactly: two files (or the same at two times) have the same version if and only if their modification
times, in whole milliseconds, are the same modulo 2^32. -/
theorem C78_exact_partial {fi fi' : FileInfo} {q q' : QID} (h : IsQidOf fi q) (h' : IsQidOf fi' q')
    (h0 : 0 ≤ fi.modTime.sec) (hlt : fi.modTime.sec * 1000000000 + fi.modTime.nsec < 2 ^ 63)
    (h0' : 0 ≤ fi'.modTime.sec) (hlt' : fi'.modTime.sec * 1000000000 + fi'.modTime.nsec < 2 ^ 63) :
    q.Version = q'.Version ↔ fi.modTime.ms % 2 ^ 32 = fi'.modTime.ms % 2 ^ 32 := by
  rw [← h.2.1 h0 hlt, ← h'.2.1 h0' hlt']
  exact UInt32.toNat_inj.symm

end
end Ninep.Ufs

namespace Ninep.Ufs
open Spec Mem

/-- C53: with a count of 10 no entry of "/x" fits, with a count of 100 both do -/
example : ∃ l, memDirs.listing 2 demoOpen.world = some l ∧ fitting [103] 10 l = [] ∧
    fitting [103] 100 l = l ∧ l.length = 2 := ⟨_, rfl, rfl, rfl, rfl⟩

/-- C53: entries with longer and longer names: the listing stops in the middle -/
example : (fitting [103] 60 [{ name := [97], size := 0, mode := 0, modTime := ⟨0, 0⟩, sys := some 1 },
      { name := List.replicate 20 97, size := 0, mode := 0, modTime := ⟨0, 0⟩, sys := some 1 },
      { name := [98], size := 0, mode := 0, modTime := ⟨0, 0⟩, sys := some 1 }]).map (·.name) = [[97]] := rfl

/-- C78: the same millisecond, another one, and one 2^32 later -/
example : (⟨1000, 5⟩ : Time).ms % 2 ^ 32 = (⟨1000, 999999⟩ : Time).ms % 2 ^ 32 ∧
    (⟨1000, 5⟩ : Time).ms % 2 ^ 32 ≠ (⟨1000, 1000000⟩ : Time).ms % 2 ^ 32 ∧
    (⟨1000, 5⟩ : Time).ms % 2 ^ 32 = (⟨1000 + 4294967, 296000005⟩ : Time).ms % 2 ^ 32 := by decide

end Ninep.Ufs

namespace Ninep.Client
open Spec

/-- C31: a receiver that holds a packet with a tag that was never used -/
example (p : Bytes) (hp : IsPacket p) : ∃ s, Exec true anyone init s ∧ s.recv = .got ⟨none, p⟩ := by
  have e1 : Exec true anyone init _ := Exec.step init _ _ .junk (Exec.refl init) trivial (by simp [Alive, init]) (Step.junk init p hp rfl)
  have e2 := Exec.step init _ _ .client e1 trivial (by simp [Alive, init]) (Step.read _ ⟨none, p⟩ [] rfl rfl)
  exact ⟨_, Exec.step init _ _ .client e2 trivial (by simp [Alive, init]) (Step.handOver _ ⟨none, p⟩ rfl rfl), rfl⟩

end Ninep.Client
