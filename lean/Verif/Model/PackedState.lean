import Mathlib.Data.Nat.Init

/-! # `PackedStateVector` of `ot/lp/network_simplex_simple.h` -/

namespace POT.Packed

/-- `ArcState`, network_simplex_simple.h:356-360 -/
inductive ArcState | upper | tree | lower
deriving DecidableEq

/-- the bytes, network_simplex_simple.h:404 -/
abbrev Bytes := List (BitVec 8)

/-- `resize`, network_simplex_simple.h:364-367 -/
def resize (n : ℕ) : Bytes := List.replicate ((n + 3) / 4) 0

/-- `encode`, network_simplex_simple.h:397-401 -/
def encode : ArcState → BitVec 8
  | .lower => 0
  | .tree => 1
  | .upper => 2

/-- `get`, network_simplex_simple.h:380-386; a read out of bounds gives `0` here -/
def get (data : Bytes) (index : ℕ) : ArcState :=
  let bits := (data.getD (index / 4) 0 >>> (2 * (index % 4))) &&& 0x03#8
  if bits = 0 then .lower else if bits = 1 then .tree else .upper

/-- `set`, network_simplex_simple.h:388-395; a write out of bounds is dropped here -/
def set (data : Bytes) (index : ℕ) (state : ArcState) : Bytes :=
  let byte := index / 4
  let shift := 2 * (index % 4)
  data.set byte ((data.getD byte 0 &&& ~~~(0x03#8 <<< shift)) ||| (encode state <<< shift))

/-- `fill`, network_simplex_simple.h:374-378 -/
def fill (data : Bytes) (count : ℕ) (state : ArcState) : Bytes := (List.range count).foldl (fun d i => set d i state) data

end POT.Packed
