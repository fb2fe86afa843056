/-! Model of the integer hashes (`src/math.rs`, `src/noise.rs`) and of pseudorandom hash distribution by `ping`. -/

namespace Fundsp.Hash

/-- `hash1`, `math.rs:552-560`. -/
def hash1 (x : BitVec 64) : BitVec 64 :=
  let x := x ^^^ 0x5555555555555555#64
  let x := x * 0x517cc1b727220a95#64
  let x := (x ^^^ (x >>> 32)) * 0xd6e8feb86659fd93#64
  let x := (x ^^^ (x >>> 32)) * 0xd6e8feb86659fd93#64
  x ^^^ (x >>> 32)

/-- The word mixed by `rnd1`, `math.rs:529-535` (before taking the top 53 bits). -/
def rnd1Word (x : BitVec 64) : BitVec 64 :=
  let x := x ^^^ 0x5555555555555555#64
  let x := x * 0x9e3779b97f4a7c15#64
  let x := (x ^^^ (x >>> 30)) * 0xbf58476d1ce4e5b9#64
  let x := (x ^^^ (x >>> 27)) * 0x94d049bb133111eb#64
  x ^^^ (x >>> 31)

/-- `hash32x`, `noise.rs:154-158`. -/
def hash32x (x : BitVec 32) : BitVec 32 :=
  let x := (x ^^^ (x >>> 16)) * 0x45d9f3b#32
  let x := (x ^^^ (x >>> 16)) * 0x45d9f3b#32
  (x ^^^ (x >>> 16)) * 0x45d9f3b#32

/-- `AttoHash::hash`, `math.rs:609-618`. -/
def attoHash (state data : BitVec 64) : BitVec 64 := ((state.rotateLeft 5) ^^^ data) * 0x517cc1b727220a95#64

/-- A component tree as seen by `ping`: `leaf id hash` uses the default implementation (`audionode.rs:150-155`,
`audiounit.rs:80-85`) and remembers the hash given to `set_hash`; `node id children` is a combinator
(`audionode.rs:939, 1220, 1368, 1489, 1613, 1726, 1820, 1918, 2054, 2196, 2314, 2432`, `feedback.rs:152, 264`,
`net.rs:1371-1377`), which hashes its own ID and then visits the children in order. -/
inductive Comp
  | leaf (id : BitVec 64) (hash : BitVec 64)
  | node (id : BitVec 64) (children : List Comp)

mutual
/-- `ping(probe, hash)`: returns the updated component and the new hash. -/
def Comp.ping (probe : Bool) (h : BitVec 64) : Comp → Comp × BitVec 64
  | .leaf id old => (.leaf id (if probe then old else h), attoHash h id)
  | .node id cs => let r := pingList probe (attoHash h id) cs; (.node id r.1, r.2)
/-- The loop over children. -/
def pingList (probe : Bool) (h : BitVec 64) : List Comp → List Comp × BitVec 64
  | [] => ([], h)
  | c :: cs => let r := c.ping probe h; let rs := pingList probe r.2 cs; (r.1 :: rs.1, rs.2)
end

end Fundsp.Hash
