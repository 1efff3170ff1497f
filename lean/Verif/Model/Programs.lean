import Verif.Model.Mixed
import Verif.Model.Adaptive
import Verif.Spec.Adaptive
import Verif.Spec.Catching
/-
Any program as `serialize_data`, and everything a serializer can be used for in one history: implementations that decide by what they are told
(Model/Adaptive.lean), push temporaries (Model/Temporaries.lean), and may panic at any point, at any depth of closures (Model/UserPanic.lean); between them
values with the crate's own and derived implementations, and direct storage operations (Model/Mixed.lean). Panics are caught by the caller.
-/
namespace SerRaw

/-- An implementation, on a given value — ser_raw/src/serialize.rs:97-136. Each method is followed by what the implementation does with the
answer. As `Adaptive` (Model/Adaptive.lean), and it may panic. -/
inductive Program
  /-- return; `out`: what was left in captured variables -/
  | done (out : List Nat)
  /-- `panic!()`, an `unwrap` that fails, … -/
  | panic
  /-- look at the serializer (position, capacity, contents, addresses, the position mapping) — ser_raw/src/serializer.rs:497-508 -/
  | look (f : Ser → Program)
  /-- `serializer.pos()` — ser_raw/src/serializer.rs:503-505 -/
  | lookPos (f : Nat → Program)
  /-- `serializer.pos_for(value)` for the value at address `x` (`PureCopySerializer` has no such method) —
      ser_raw/src/serializer_traits/pos_tracking.rs:19-21 -/
  | lookFor (x : Nat) (f : Nat → Program)
  /-- `push_and_process_slice(slice, ptr_addr, |s| inner)`, and `push_and_process` with `len = 1`; then it knows the position, and what
      `inner` left in captured variables — ser_raw/src/serializer.rs:312-342 -/
  | pushProcess (L : Layout) (len src : Nat) (data : Nat → Cell) (ptr : Nat) (inner : Program)
      (rest : Nat → List Nat → Program)
  /-- `push_slice(slice, ptr_addr)`, and `push` with `len = 1` — ser_raw/src/serializer.rs:282-299 -/
  | push (L : Layout) (len src : Nat) (data : Nat → Cell) (ptr : Nat) (rest : Nat → Program)
  /-- `push_raw_slice(slice)`, and `push_raw` with `len = 1` — ser_raw/src/serializer.rs:352-367 -/
  | pushRaw (L : Layout) (len src : Nat) (data : Nat → Cell) (rest : Nat → Program)
  /-- `push_raw_bytes(bytes)` — ser_raw/src/serializer.rs:406-408 -/
  | pushRawBytes (len : Nat) (data : Nat → Cell) (rest : Nat → Program)
  /-- `overwrite_with(|s| s.overwrite(addr, &value))` — ser_raw/src/serializer.rs:455-486 -/
  | overwrite (addr : Nat) (L : Layout) (data : Nat → Cell) (rest : Program)

/-- Run it on a serializer of kind `k` — the methods are those of Model/Serializer.lean — ser_raw/src/serialize.rs:97-136. -/
def Program.run (C : Cfg) (k : Kind) : Program → M Ser (List Nat)
  | .done out => pure out
  | .panic => M.throw .user
  | .look f => fun s => (f s).run C k s
  | .lookPos f => fun s => (f s.sto.vec.pos).run C k s
  | .lookFor x f => do
    let m ← Ser.getMap
    let p ← m.posForAddr C.arch x
    (f p).run C k
  | .pushProcess L len src data ptr inner rest => do
    let r ← pushAndProcessCapturing C k ⟨L, len, src, data⟩ (addrFromRef k ptr) (inner.run C k)
    (rest r.1 r.2).run C k
  | .push L len src data ptr rest => do
    let p ← pushSlice C k ⟨L, len, src, data⟩ (addrFromRef k ptr)
    (rest p).run C k
  | .pushRaw L len src data rest => do
    let p ← pushRawSlice C ⟨L, len, src, data⟩
    (rest p).run C k
  | .pushRawBytes len data rest => do
    let p ← SerRaw.pushRawBytes C len data
    (rest p).run C k
  | .overwrite addr L data rest => do
    overwriteWith k (SerRaw.overwrite C k (addrFromRef k addr) L data)
    rest.run C k

/-- The calls `c` and then `rest`: how `value.serialize_data(serializer)` on a value of another type is written in a `Program` (`C83_nested`) —
ser_raw/src/serialize.rs:97-102. -/
def Program.calls : TCalls → Program → Program
  | .done, rest => rest
  | .pushProcess L len src data ptr inner c, rest =>
    .pushProcess L len src data ptr (Program.calls inner (.done [])) fun _ _ => Program.calls c rest
  | .push L len src data ptr c, rest => .push L len src data ptr fun _ => Program.calls c rest
  | .pushRaw L len src data c, rest => .pushRaw L len src data fun _ => Program.calls c rest
  | .pushRawBytes len data c, rest => .pushRawBytes len data fun _ => Program.calls c rest
  | .overwrite addr L data c, rest => .overwrite addr L data (Program.calls c rest)

/-- Go on, unless the closure stopped — a device for recording the calls made before a panic, ser_raw/src/serialize.rs:97-136. -/
def unlessStopped (r : List Nat) (f : List Nat → Adaptive) : Adaptive :=
  match r with
  | [] => .done []
  | _ :: out => f out

/-- The program that stops where the other one panics: it returns the empty list there, and otherwise the result after a 0 — a device for recording the
calls made before a panic, ser_raw/src/serialize.rs:97-136. -/
def Program.marked : Program → Adaptive
  | .done out => .done (0 :: out)
  | .panic => .done []
  | .look f => .look fun s => (f s).marked
  | .lookPos f => .lookPos fun p => (f p).marked
  | .lookFor x f => .lookFor x fun p => (f p).marked
  | .pushProcess L len src data ptr inner rest =>
    .pushProcess L len src data ptr inner.marked fun p r => unlessStopped r fun out => (rest p out).marked
  | .push L len src data ptr rest => .push L len src data ptr fun p => (rest p).marked
  | .pushRaw L len src data rest => .pushRaw L len src data fun p => (rest p).marked
  | .pushRawBytes len data rest => .pushRawBytes len data fun p => (rest p).marked
  | .overwrite addr L data rest => .overwrite addr L data rest.marked

/-- It does not panic by itself — ser_raw/src/serialize.rs:97-136. -/
def Program.NoPanic : Program → Prop
  | .done _ => True
  | .panic => False
  | .look f => ∀ s, (f s).NoPanic
  | .lookPos f => ∀ p, (f p).NoPanic
  | .lookFor _ f => ∀ p, (f p).NoPanic
  | .pushProcess _ _ _ _ _ inner rest => inner.NoPanic ∧ ∀ p r, (rest p r).NoPanic
  | .push _ _ _ _ _ rest => ∀ p, (rest p).NoPanic
  | .pushRaw _ _ _ _ rest => ∀ p, (rest p).NoPanic
  | .pushRawBytes _ _ rest => ∀ p, (rest p).NoPanic
  | .overwrite _ _ _ rest => rest.NoPanic

/-- The calls the program makes for the value of layout `L` at `a`, when `serialize_value` is called in the state `s`, up to the end or a panic —
ser_raw/src/serializer.rs:260-269. -/
def Program.callsFrom (C : Cfg) (k : Kind) (L : Layout) (a : Nat) (data : Nat → Cell) (body : Program) (s : Ser) : TCalls :=
  match startOf (serializeValue C k L a data) s with
  | some s1 => body.marked.made C k s1
  | none => .done

/-- Something done with a serializer — ser_raw/src/serializer.rs:260-436. -/
inductive XAct
  /-- one of the things of Model/Mixed.lean -/
  | plain (a : Act)
  /-- `serialize_value` on a value of layout `L` at `a` with the bytes `data` (which may be a temporary), whose `serialize_data` is `body` —
      ser_raw/src/serializer.rs:260-269 -/
  | program (L : Layout) (a : Nat) (data : Nat → Cell) (body : Program)
  /-- the same, if `serialize_data` also catches panics and goes on (Model/Catching.lean) — ser_raw/src/serializer.rs:260-269 -/
  | catching (L : Layout) (a : Nat) (data : Nat → Cell) (body : Catching)

/-- Do it — ser_raw/src/serializer.rs:260-436. -/
def XAct.run (C : Cfg) (k : Kind) (P : Prog) (fuel : Nat) : XAct → M Ser Nat
  | .plain a => a.run C k P fuel
  | .program L a data body => serializeValue C k L a data (do let _ ← body.run C k; pure ())
  | .catching L a data body => serializeValue C k L a data (do let _ ← body.run C k; pure ())

/-- It is a `serialize_value` call — ser_raw/src/serializer.rs:260-269. -/
def XAct.IsValue : XAct → Prop
  | .plain a => a.IsValue
  | .program .. => True
  | .catching .. => True

/-- What was done, the calls a program made, the result (`none`: it panicked, and the panic was caught), and the storage's position before and
after — ser_raw/src/serializer.rs:260-436. -/
structure XEv where
  act : XAct
  calls : TCalls
  res : Option Nat
  lo : Nat
  hi : Nat

/-- Byte `i` is written by the event, a random-access write — ser_raw/src/storage/mod.rs:485-520. -/
def XEv.Writes (e : XEv) (i : Nat) : Prop :=
  ∃ p L len d, e.act = .plain (.sto (.writeSlice p L len d)) ∧ p ≤ i ∧ i < p + L.size * len

/-- The calls made — ser_raw/src/serializer.rs:260-269. -/
def XAct.callsFrom (C : Cfg) (k : Kind) (s : Ser) : XAct → TCalls
  | .plain _ => .done
  | .program L a data body => body.callsFrom C k L a data s
  | .catching L a data body => body.callsFrom C k L a data s

/-- What is permitted after `es`: as in Model/Mixed.lean; of a program, that the value is real, that the calls it makes in this run follow the rules
(Spec/Temporaries.lean), and that in a build with overflow checks it does not ask `pos_for` for something that overflows; of one that catches panics, that
the calls it amounts to follow the rules, that what it tries to push is real, and that it catches panics where the serializer still knows
which value it is at (Spec/Catching.lean) — ser_raw/src/serializer.rs:260-436. -/
def XAct.Legal (C : Cfg) (k : Kind) (P : Prog) (es : List XEv) (s : Ser) : XAct → Prop
  | .plain (.typed r) => Valid C.arch P r
  | .plain (.user r) => r.OK C
  | .plain (.sto o) => o.Legal C s.sto ∧ o ≠ .clear ∧
      ∀ p L len d, o = .writeSlice p L len d → ∀ e ∈ es, e.act.IsValue → e.hi ≤ p ∨ p + L.size * len ≤ e.lo
  | .program L a data body =>
    TRoot.OK C ⟨L, a, data, body.callsFrom C k L a data s⟩ ∧
    (C.arch.debug = false ∨ body.marked.NoPosFor ∨ ∀ s', serializeValue C k L a data (do let _ ← body.run C k; pure ()) s ≠ .panic .arith s')
  | .catching L a data body => TRoot.OK C ⟨L, a, data, body.callsFrom C k L a data s⟩ ∧ body.Real C ∧ body.Restores k

/-- `XSess C k P t es s`: a serializer of kind `k` created from the storage `t` (`from_storage`, ser_raw/src/serializers/complete.rs:138-144), after `es`. -/
inductive XSess (C : Cfg) (k : Kind) (P : Prog) (t : Sto) : List XEv → Ser → Prop
  | start : XSess C k P t [] (Ser.fromStorage t)
  | step {es s a fuel r s'} : XSess C k P t es s → a.Legal C k P es s → M.caught (a.run C k P fuel) s = .ok r s' →
      XSess C k P t (es ++ [⟨a, a.callsFrom C k s, r, s.sto.vec.pos, s'.sto.vec.pos⟩]) s'

/-- `XReach C P t`: storage operations and serializers of any kinds used in any of the ways above, finished or dropped, lead to `t` —
ser_raw/src/serializer.rs:186-520. -/
inductive XReach (C : Cfg) (P : Prog) : Sto → Prop
  | new : XReach C P Sto.new
  | withCapacity {c t} : c < C.arch.usizeMod → Sto.withCapacity C c Sto.new = .ok () t → XReach C P t
  | op {t o p t'} : XReach C P t → SOp.Legal C t o → SOp.run C o t = .ok p t' → XReach C P t'
  | opPanic {t o k t'} : XReach C P t → SOp.Legal C t o → SOp.run C o t = .panic k t' → XReach C P t'
  /-- `serializer.finalize()` — ser_raw/src/serializer.rs:491-493 -/
  | finished {t k xs s s'} : XReach C P t → XSess C k P t xs s → finalize C k s = .ok () s' → XReach C P s'.sto
  /-- a serializer on a borrowed storage dropped without `finalize` -/
  | dropped {t k xs s} : XReach C P t → XSess C k P t xs s → XReach C P s.sto

end SerRaw
