import Verif.Props.Exact
import Verif.Props.Malformed
import Verif.Props.UfsMore

/-!
# More of the false properties, exactly

C18 and C71 are false of this code; here is what is the case instead, for all packets and states.
-/

namespace Ninep
open Spec
variable {σ : Type}

theorem call_logged_log (ns : NineServer σ) (m : TMsg) (s : σ × List TMsg) :
    call (logged ns) m s = match call ns m s.1 with
      | .panic => .panic
      | .err s' e => .err (s', s.2 ++ [m]) e
      | .ok s' r => .ok (s', s.2 ++ [m]) r := by
  cases m <;> simp only [call, logged, recorded] <;> (split <;> simp_all [mapRes])

/-- **C18**, exactly: a request that its decoder does not accept is refused, and does not reach the file server, if no
Tversion was received; otherwise it is carried out with what the decoder has got so far, as if nothing was wrong with it:
the file server is called with it, its state changes accordingly, and the reply is the one to this request.

Full statement (false, see `C18_counterexample`): it never reaches the file server. -/
theorem C18_exact_partial (ns : NineServer σ) (m m' : TMsg) (b b1 : Buffer) (t : Tag) (err : DecErr)
    (x : σ) (log : List TMsg) (v : Bool) (hb : 2 ≤ b.unread.length) (h : decT m b = .done m' t (some err) b1) :
    (v = false → m.ty ≠ MT.Tversion → ∃ b' e, dispatch (logged ns) ⟨(x, log), v⟩ b m.ty = .done ⟨(x, log), v⟩ b' ∧
      b'.bytes = (RMsg.error ⟨e⟩).packet (tagOf b.unread)) ∧
    (v = true ∨ m.ty = MT.Tversion →
      match call ns m' x with
      | .panic => dispatch (logged ns) ⟨(x, log), v⟩ b m.ty = .panic
      | .err x' e => ∃ b', dispatch (logged ns) ⟨(x, log), v⟩ b m.ty = .done ⟨(x', log ++ [m']), true⟩ b' ∧
          b'.bytes = (RMsg.error ⟨e⟩).packet t
      | .ok x' r => ∃ b', dispatch (logged ns) ⟨(x, log), v⟩ b m.ty = .done ⟨(x', log ++ [m']), true⟩ b' ∧
          b'.bytes = r.packet t) := by
  constructor
  · intro hv hm
    exact ⟨_, _, dispatch_unversioned _ _ _ _ hv hm hb, encodeR_bytes _ _ _⟩
  · intro hv
    rw [dispatch_request _ _ _ _ hv, h]
    unfold handle
    dsimp only
    rw [call_logged_log]
    dsimp only
    cases call ns m' x with
    | panic => rfl
    | err x' e => exact ⟨_, rfl, encodeR_bytes _ _ _⟩
    | ok x' r => exact ⟨_, rfl, encodeR_bytes _ _ _⟩

/-- a remove of which only the tag has arrived is such a request: fid 0 is removed -/
example (a b : Byte) (spare : Bytes) : ∃ e b1, decT (.remove {}) ⟨[], [a, b], spare⟩ = .done (.remove { OFID := 0 }) (tagOf [a, b]) (some e) b1 :=
  C18_counterexample_remove a b spare

end Ninep

namespace Ninep.Ufs
open Spec
variable {ω H : Type} {host : Host ω H} {user : GoString}

/-- **C71**, exactly: an attach succeeds if and only if it asks for no authentication and the operating system reports the
file it names; the fid table has no influence on this, nor on the reply, so a fid that is in use is taken over.

Full statement (false, see `C71_counterexample`): it fails if the fid is in use. -/
theorem C71_exact_partial (p : TattachPkt) (s : State ω H) :
    ((∃ s' r, call (ufs host user) (.attach p) s = .ok s' r) ↔
      p.AFID.toNat = 0xFFFFFFFF ∧ ∃ st, (host.stat (pathJoin s.rootPath (pathJoin [slash] p.Aname)) s.world).2 = .ok st) ∧
    ∀ files, match call (ufs host user) (.attach p) s with
      | .panic => False
      | .err s' e => call (ufs host user) (.attach p) { s with files := files } = .err { s' with files := files } e
      | .ok s' r => ∃ f, s'.files p.SFID = some f ∧
          call (ufs host user) (.attach p) { s with files := files } = .ok ({ s' with files := files }.set p.SFID f) r := by
  have he : ∀ s, call (ufs host user) (.attach p) s =
    mapRes (fun q => .attach ⟨q⟩) (rattach host p.SFID p.AFID p.Uname p.Aname s) := fun _ => rfl
  simp only [he]
  unfold rattach
  have ha : p.AFID ≠ NOFID ↔ ¬ p.AFID.toNat = 0xFFFFFFFF := not_congr UInt32.toNat_inj.symm
  by_cases h : p.AFID.toNat = 0xFFFFFFFF
  · simp only [if_neg (fun hh => ha.1 hh h)]
    generalize host.stat _ _ = y
    obtain ⟨w, y⟩ := y
    cases y with
    | error e => simp [h, mapRes]
    | ok st =>
      refine ⟨⟨fun _ => ⟨h, st, rfl⟩, fun _ => ⟨_, _, rfl⟩⟩, fun files => ⟨_, set_same .., rfl⟩⟩
  · simp [if_pos (ha.2 h), h, mapRes]

end Ninep.Ufs
