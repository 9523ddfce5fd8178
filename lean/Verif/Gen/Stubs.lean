import Verif.Gen.Packets
import Verif.Server.Dispatch
import Verif.Client.Calls
/-
The names in the code that protocol/gen.go writes: the lists made by `genParms` and `genRets` (gen.go:428-456) and the
templates `mfunc`, `ufunc`, `sfunc` and `cfunc` (gen.go:129-203) around them.  Gen/Model.lean leaves names out; here a name is
looked up the way Go does it, so that a field whose name is also used for something else by a template is seen.

A description of a packet gives names and types of its fields.  Lists of names are texts of words and commas, which are
parsed as Go parses them.  `none` stands for a program that the Go compiler rejects (or, for fields with lower case names, for
a generator that panics at `f.Interface()`, gen.go:254).
-/

set_option linter.unusedVariables false

namespace Ninep.Gen

deriving instance DecidableEq for Ty, Fields

/-- a field as `reflect` shows it: its name, the name of its type (`f.Type().Name()`, empty for slices), its type, and for a struct
the names of the types of the numbers in it -/
structure Field where
  name : String
  tyName : String
  ty : Ty
  inner : List String

abbrev Desc := List Field

def Desc.names (d : Desc) : List String := d.map Field.name
/-- the description without names, as in Gen/Model.lean -/
def Desc.schema (d : Desc) : Fields := fields (d.map Field.ty)

/-- a value and its type -/
abbrev AnyVal := (t : Ty) × t.Val

/-! ### lists of names -/

inductive Word where
  | id (s : String)
  | comma
deriving DecidableEq

/-- `MList` and `MLsep` after `genParms`, gen.go:428-440 -/
def genParms (names : List String) : List Word × List Word :=
  names.foldl (fun e n => (e.1 ++ e.2 ++ [.id n], [.comma])) ([], [])

/-- `UList` after `genRets`, gen.go:444-453 -/
def genRets (names : List String) : List Word := names.foldl (fun l n => l ++ [.id n, .comma]) []

/-- names separated by commas, as on the left of `:=` or after `return` -/
def idents : List Word → Option (List String)
  | [.id n] => some [n]
  | .id n :: .comma :: rest => (idents rest).map (n :: ·)
  | _ => none

/-- the arguments of a call or the parameters of a function: may be empty, and a comma may follow the last one -/
def args : List Word → Option (List String)
  | [] => some []
  | [.id n] => some [n]
  | .id n :: .comma :: rest => (args rest).map (n :: ·)
  | _ => none

/-! ### scopes -/

/-- what a name can stand for inside a function: the value of a field, or one of the template's own variables; a name
that is not found is looked up in the package -/
inductive Ref where
  | field (v : AnyVal)
  | local_ (n : String)

abbrev Env := String → Option Ref

/-- Declare variables in one scope; a name must not occur twice. -/
def declare (env : Env) (names : List String) (refs : List Ref) : Option Env :=
  if names.Nodup ∧ names.length = refs.length then
    some fun n => match (names.zip refs).lookup n with
      | some r => some r
      | none => env n
  else none

/-- the template's own variables -/
def own (names : List String) : List Ref := names.map .local_

/-- `n` must be the function, type or constant of the package -/
def pkgLevel (env : Env) (n : String) : Option Unit := if (env n).isNone then some () else none

/-- the values of the fields that these names stand for -/
def values (env : Env) (names : List String) : Option (List AnyVal) :=
  names.mapM fun n => match env n with
    | some (.field v) => some v
    | _ => none

/-- the name must be the template's own variable -/
def isOwn (env : Env) (n : String) : Option Unit :=
  match env n with
  | some (.local_ m) => if m = n then some () else none
  | _ => none

/-- the values as a list -/
def toList : (fs : Fields) → fs.Val → List AnyVal
  | .nil, _ => []
  | .cons t fs, v => ⟨t, v.1⟩ :: toList fs v.2

/-- the values of a struct, given as a list; `none` if the number or the types do not fit -/
def ofList : (fs : Fields) → List AnyVal → Option fs.Val
  | .nil, [] => some ()
  | .cons t fs, x :: xs =>
    if h : x.1 = t then (ofList fs xs).map fun v => (h ▸ x.2, v) else none
  | _, _ => none

/-- `f.Interface()` panics for a field that is not exported, gen.go:254, 266 -/
def exported (n : String) : Bool := match n.toList with
  | c :: _ => c.isUpper
  | [] => false

/-- `uint8(x)` -/
def toByte : AnyVal → Option UInt8
  | ⟨.uint8, v⟩ => some v
  | ⟨.uint16, v⟩ => some (UInt16.toUInt8 v)
  | ⟨.uint32, v⟩ => some (UInt32.toUInt8 v)
  | ⟨.int32, v⟩ => some (Int32.toUInt32 v).toUInt8
  | ⟨.uint64, v⟩ => some (UInt64.toUInt8 v)
  | _ => none

/-- Template `mfunc`, gen.go:129-142: `Marshal…Pkt` called with a buffer, a tag and values.  `name` is `{{.Name}}`, the constant
that stands for the type of the packet, with value `const`. -/
def marshalText (name : String) (const : MType) (d : Desc) (b : Buffer) (t : Tag) (vs : List AnyVal) : Option Buffer := do
  -- func Marshal{{.MFunc}}Pkt (b *bytes.Buffer, t Tag, {{.MParms}})
  let ps ← args ([.id "b", .comma, .id "t", .comma] ++ (genParms d.names).1)
  let env ← declare (fun _ => none) ps (own ["b", "t"] ++ vs.map .field)
  if d.names.all exported = false then none
  -- var l uint64; b.Reset(); b.Write([]byte{0,0,0,0, uint8({{.Name}}),
  pkgLevel env "l"
  isOwn env "b"
  isOwn env "t"
  let ty ← match env name with
    | none => some const
    | some (.field v) => toByte v
    | some (.local_ _) => none
  -- {{.MCode}}: every name stands for the parameter of this name
  let xs ← values env d.names
  let v ← ofList d.schema xs
  genMarshal ty d.schema b t v

/-- the names of types that `{{.UCode}}` uses: a conversion for an integer (gen.go:219-224), `make([]QID, l)` (gen.go:339) -/
def Field.conv (f : Field) : List String :=
  match f.ty with
  | .uint8 | .uint16 | .uint32 | .int32 | .uint64 => [f.tyName]
  | .qids => ["QID"]
  | .struct _ => f.inner
  | _ => []

/-- Template `ufunc`, gen.go:143-158: `Unmarshal…Pkt`.  The result is what the variables named in the list of results hold at
the end. -/
def unmarshalText (d : Desc) (b : Buffer) : Option (Unm (List AnyVal)) := do
  if d.names.all exported = false then none
  -- func Unmarshal{{.UFunc}}Pkt (b *bytes.Buffer) ({{.URet}} t Tag, err error) { var u [8]uint8; var l uint64
  let rs ← idents (genRets d.names ++ [.id "t", .comma, .id "err"])
  let env ← declare (fun _ => none) (["b", "u", "l"] ++ rs) (own ["b", "u", "l"] ++ (toList d.schema d.schema.zero).map .field ++ own ["t", "err"])
  pkgLevel env "Tag"
  (d.flatMap Field.conv).forM (pkgLevel env)
  -- {{.UCode}} assigns to the results by name
  let xs ← values env d.names
  let _ ← ofList d.schema xs
  some ((genUnmarshal d.schema b).map (toList d.schema))

/-- Template `sfunc`, gen.go:159-171: `SrvR…`.  `tn`, `rn` are `{{.T.MFunc}}`, `{{.R.MFunc}}`; `dec`, `enc` are the decoder and the
encoder that are called, `method` is `s.NS.{{.R.MFunc}}`. -/
def srvText {σ : Type} (tn rn : String) (T R : Desc) (dec : Buffer → Unm (List AnyVal))
    (method : List AnyVal → σ → NRes σ (List AnyVal)) (enc : Buffer → Tag → List AnyVal → Option Buffer)
    (s : Server σ) (b : Buffer) : Option (DispRes σ) := do
  if (T.names ++ R.names).all exported = false then none
  let mt := genParms T.names
  let mr := genParms R.names
  let env0 ← declare (fun _ => none) ["s", "b", "err"] (own ["s", "b", "err"])
  pkgLevel env0 ("Unmarshal" ++ tn ++ "Pkt")
  -- {{.T.MList}}{{.T.MLsep}} t, err := Unmarshal{{.T.MFunc}}Pkt(b)
  let lhs ← idents (mt.1 ++ mt.2 ++ [.id "t", .comma, .id "err"])
  match dec b with
  | .panic => some .panic
  | .done xs t _ b => do
    let env1 ← declare env0 lhs (xs.map .field ++ own ["t", "err"])
    -- if {{.R.MList}}{{.R.MLsep}} err := s.NS.{{.R.MFunc}}({{.T.MList}}); err != nil {
    isOwn env1 "s"
    let lhs' ← idents (mr.1 ++ mr.2 ++ [.id "err"])
    let as ← args mt.1
    let xs' ← values env1 as
    match method xs' s.ns with
    | .panic => some .panic
    | .err ns e => do
      let env2 ← declare env1 lhs' ((toList R.schema R.schema.zero).map .field ++ own ["err"])
      -- MarshalRerrorPkt(b, t, fmt.Sprintf("%v", err))
      pkgLevel env2 "MarshalRerrorPkt"
      isOwn env2 "b"
      isOwn env2 "t"
      some (.done { s with ns := ns } (marshalRerror b t { Error := e }))
    | .ok ns ys => do
      let env2 ← declare env1 lhs' (ys.map .field ++ own ["err"])
      -- Marshal{{.R.MFunc}}Pkt(b, t, {{.R.MList}})
      pkgLevel env2 ("Marshal" ++ rn ++ "Pkt")
      let as' ← args ([.id "b", .comma, .id "t", .comma] ++ mr.1)
      isOwn env2 "b"
      isOwn env2 "t"
      let ys' ← values env2 (as'.drop 2)
      let b' ← enc b t ys'
      some (.done { s with ns := ns } b')

/-- `MType(bb[4]) == x` for a variable `x`: only allowed if its type is `MType` -/
def cmpMType (tyName : String) : AnyVal → Option UInt8
  | ⟨.uint8, v⟩ => if tyName = "MType" then some v else none
  | _ => none

/-- the name of the type of a field -/
def tyNameOf (d : Desc) (n : String) : String := match d.find? (·.name = n) with
  | some f => f.tyName
  | none => ""

open Client in
/-- Template `cfunc`, gen.go:172-202: `CallT…` called with the values `vs`; `enc` and `dec` are the encoder and the decoder.
Before the send: the packet.  After it: what is returned for the reply `bb`. -/
def callText (tn rn : String) (T R : Desc) (enc : Buffer → Tag → List AnyVal → Option Buffer) (dec : Buffer → Unm (List AnyVal))
    (vs : List AnyVal) : Option (Buffer × (Bytes → Bytes → Option (CallRes (List AnyVal)))) := do
  if (T.names ++ R.names).all exported = false then none
  let mt := genParms T.names
  let mr := genParms R.names
  -- func (c *Client)Call{{.T.MFunc}} ({{.T.MParms}}) ({{.R.URet}} err error)
  let ps ← args mt.1
  let rs ← idents (genRets R.names ++ [.id "err"])
  let zeros := toList R.schema R.schema.zero
  let env ← declare (fun _ => none) (["c"] ++ ps ++ rs) (own ["c"] ++ vs.map .field ++ zeros.map .field ++ own ["err"])
  -- var b = bytes.Buffer{}; t := Tag(0); r := make (chan []byte)
  pkgLevel env "Tag"
  let env ← declare env ["b", "t", "r", "bb"] (own ["b", "t", "r", "bb"])
  -- Marshal{{.T.MFunc}}Pkt(&b, t, {{.T.MList}})
  pkgLevel env ("Marshal" ++ tn ++ "Pkt")
  let as ← args ([.id "b", .comma, .id "t", .comma] ++ mt.1)
  isOwn env "b"
  isOwn env "t"
  let xs ← values env (as.drop 2)
  let b ← enc {} 0 xs
  -- c.FromClient <- &RPCCall{b: b.Bytes(), Reply: r}; bb := <-r
  pkgLevel env "RPCCall"
  pkgLevel env "MType"
  some (b, fun spare bb => do
    if bb.length < 5 then some .panic
    else
      -- if MType(bb[4]) == Rerror {
      let rerror ← match env "Rerror" with
        | none => some MT.Rerror
        | some (.field v) => cmpMType (tyNameOf (T ++ R) "Rerror") v
        | some (.local_ _) => none
      -- return {{.R.UList}} err
      let rets ← idents (genRets R.names ++ [.id "err"])
      pkgLevel env "UnmarshalRerrorPkt"
      pkgLevel env ("Unmarshal" ++ rn ++ "Pkt")
      -- {{.R.MList}}{{.R.MLsep}} _, err = Unmarshal…
      let lhs ← idents (mr.1 ++ mr.2 ++ [.id "_", .comma, .id "err"])
      if bb.getD 4 0 = rerror then
        match unmarshalRerror ⟨[], bb.drop 5, spare⟩ with
        | .panic => some .panic
        | .done _ _ (some e) _ => do
          let ys ← values env (rets.take (rets.length - 1))
          some (.ret ys (some (.decode e)))
        | .done s _ none _ => do
          let ys ← values env (rets.take (rets.length - 1))
          some (.ret ys (some (.remote s.Error)))
      else
        match dec ⟨[], bb.drop 5, spare⟩ with
        | .panic => some .panic
        | .done p _ e _ => do
          let env ← declare env (lhs.take (lhs.length - 2)) (p.map .field)
          let ys ← values env (rets.take (rets.length - 1))
          some (.ret ys (e.map .decode)))

/-! ### packets -/

/-- one entry of `packages`, gen.go:95-109, with the values of the constants `tn` and `rn` -/
structure Pack where
  tn : String
  rn : String
  tc : MType
  rc : MType
  T : Desc
  R : Desc

def NRes.mapVal {σ α β : Type} (f : α → β) : NRes σ α → NRes σ β
  | .panic => .panic
  | .ok s a => .ok s (f a)
  | .err s e => .err s e

/-- a method with typed parameters and results, as a method on lists of values -/
def onLists {σ : Type} (T R : Fields) (m : T.Val → σ → NRes σ R.Val) : List AnyVal → σ → NRes σ (List AnyVal) :=
  fun xs s => match ofList T xs with
    | some v => NRes.mapVal (toList R) (m v s)
    | none => .panic

/-- `SrvR…` for a file server whose method is `m` -/
def Pack.server {σ : Type} (p : Pack) (m : p.T.schema.Val → σ → NRes σ p.R.schema.Val) (s : Server σ) (b : Buffer) :
    Option (DispRes σ) :=
  srvText p.tn p.rn p.T p.R (fun b => (genUnmarshal p.T.schema b).map (toList p.T.schema)) (onLists p.T.schema p.R.schema m)
    (marshalText p.rn p.rc p.R) s b

/-- `CallT…` with these parameters -/
def Pack.call (p : Pack) (v : p.T.schema.Val) :
    Option (Buffer × (Bytes → Bytes → Option (Client.CallRes (List AnyVal)))) :=
  callText p.tn p.rn p.T p.R (marshalText p.tn p.tc p.T) (fun b => (genUnmarshal p.R.schema b).map (toList p.R.schema))
    (toList p.T.schema v)

/-- what it makes of a reply -/
def Pack.reply (p : Pack) (v : p.T.schema.Val) (spare bb : Bytes) : Option (Client.CallRes (List AnyVal)) :=
  (p.call v).bind fun x => x.2 spare bb

/-- protocol.go:165-173 -/
def versionPack : Pack :=
  ⟨"Tversion", "Rversion", MT.Tversion, MT.Rversion, [⟨"TMsize", "MaxSize", .uint32, []⟩, ⟨"TVersion", "string", .string, []⟩],
    [⟨"RMsize", "MaxSize", .uint32, []⟩, ⟨"RVersion", "string", .string, []⟩]⟩

/-- protocol.go:175-184 -/
def attachPack : Pack :=
  ⟨"Tattach", "Rattach", MT.Tattach, MT.Rattach, [⟨"SFID", "FID", .uint32, []⟩, ⟨"AFID", "FID", .uint32, []⟩, ⟨"Uname", "string", .string, []⟩, ⟨"Aname", "string", .string, []⟩],
    [⟨"QID", "QID", qidTy, ["uint8", "uint32", "uint64"]⟩]⟩

/-- protocol.go:186-191 -/
def flushPack : Pack :=
  ⟨"Tflush", "Rflush", MT.Tflush, MT.Rflush, [⟨"OTag", "Tag", .uint16, []⟩],
    []⟩

/-- protocol.go:193-201 -/
def walkPack : Pack :=
  ⟨"Twalk", "Rwalk", MT.Twalk, MT.Rwalk, [⟨"SFID", "FID", .uint32, []⟩, ⟨"NewFID", "FID", .uint32, []⟩, ⟨"Paths", "", .strings, []⟩],
    [⟨"QIDs", "", .qids, []⟩]⟩

/-- protocol.go:203-211 -/
def openPack : Pack :=
  ⟨"Topen", "Ropen", MT.Topen, MT.Ropen, [⟨"OFID", "FID", .uint32, []⟩, ⟨"Omode", "Mode", .uint8, []⟩],
    [⟨"OQID", "QID", qidTy, ["uint8", "uint32", "uint64"]⟩, ⟨"IOUnit", "MaxSize", .uint32, []⟩]⟩

/-- protocol.go:213-223 -/
def createPack : Pack :=
  ⟨"Tcreate", "Rcreate", MT.Tcreate, MT.Rcreate, [⟨"OFID", "FID", .uint32, []⟩, ⟨"Name", "string", .string, []⟩, ⟨"CreatePerm", "Perm", .uint32, []⟩, ⟨"Omode", "Mode", .uint8, []⟩],
    [⟨"OQID", "QID", qidTy, ["uint8", "uint32", "uint64"]⟩, ⟨"IOUnit", "MaxSize", .uint32, []⟩]⟩

/-- protocol.go:239-245 -/
def statPack : Pack :=
  ⟨"Tstat", "Rstat", MT.Tstat, MT.Rstat, [⟨"OFID", "FID", .uint32, []⟩],
    [⟨"B", "", .dataCnt16, []⟩]⟩

/-- protocol.go:247-253 -/
def wstatPack : Pack :=
  ⟨"Twstat", "Rwstat", MT.Twstat, MT.Rwstat, [⟨"OFID", "FID", .uint32, []⟩, ⟨"B", "", .dataCnt16, []⟩],
    []⟩

/-- protocol.go:225-230 -/
def clunkPack : Pack :=
  ⟨"Tclunk", "Rclunk", MT.Tclunk, MT.Rclunk, [⟨"OFID", "FID", .uint32, []⟩],
    []⟩

/-- protocol.go:232-237 -/
def removePack : Pack :=
  ⟨"Tremove", "Rremove", MT.Tremove, MT.Rremove, [⟨"OFID", "FID", .uint32, []⟩],
    []⟩

/-- protocol.go:255-263 -/
def readPack : Pack :=
  ⟨"Tread", "Rread", MT.Tread, MT.Rread, [⟨"OFID", "FID", .uint32, []⟩, ⟨"Off", "Offset", .uint64, []⟩, ⟨"Len", "Count", .int32, []⟩],
    [⟨"Data", "", .bytes, []⟩]⟩

/-- protocol.go:265-273 -/
def writePack : Pack :=
  ⟨"Twrite", "Rwrite", MT.Twrite, MT.Rwrite, [⟨"OFID", "FID", .uint32, []⟩, ⟨"Off", "Offset", .uint64, []⟩, ⟨"Data", "", .bytes, []⟩],
    [⟨"RLen", "Count", .int32, []⟩]⟩

/-- the list `packages`, gen.go:95-109, without the first entry, which has no stubs -/
def packs : List Pack := [versionPack, attachPack, flushPack, walkPack, openPack, createPack, statPack, wstatPack, clunkPack, removePack, readPack, writePack]

end Ninep.Gen
