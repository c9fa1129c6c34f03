import Verif.Basic

/-
The test input generator of the fuzzer (src/rle_fuzz.c:13-438).

Random numbers are an argument: `q k` is the `k`-th draw, `q k j` its byte `j`; what holds for every `q`
holds for both generators (src/rle_fuzz.c:76-121). `size_t` counters are natural numbers.
-/

namespace Hrk.Fuzz

/-- A source of random draws: byte `j` of draw `k` (src/rle_fuzz.c:76-113). -/
abbrev Draws := Nat → Nat → Byte

/-- `fuzz_sub_state_t` (src/rle_fuzz.c:46-52). `ty`: 0 is `fst_random_data`, 1 is `fst_repeating_symbol`;
`lt`: 0 is `flt_small`, 1 is `flt_medium`, 2 is `flt_16_bit_limit`, 3 is `_flt_count`. -/
structure Sub where
  ty : Nat
  lt : Nat
  cur : Nat
  sym : Nat
deriving DecidableEq

/-- `fuzz_state_t` (src/rle_fuzz.c:54-74). `states` has `stateCount` elements; `last1` is
`lastIteratedStateIndex + 1` in 64-bit arithmetic. -/
structure State where
  symbol : Nat → Nat → Byte
  symbolLength : Nat
  symbolBound : Bool
  iterative : Bool
  relevant : Nat
  last1 : Nat
  start : Nat
  states : List Sub

/-- `fuzz_sub_state_reset` (src/rle_fuzz.c:123-128). -/
def Sub.reset (s : Sub) : Sub := { s with lt := 0, cur := 1, sym := 0 }

/-- `fuzz_sub_state_init` (src/rle_fuzz.c:130-135). -/
def Sub.init (ty : Nat) : Sub := Sub.reset ⟨ty, 0, 0, 0⟩

/-- `fuzz_sub_state_try_increment` (src/rle_fuzz.c:159-206). -/
def Sub.tryIncrement (s : Sub) : Bool × Sub :=
  let s' : Sub :=
    match s.lt with
    | 1 =>
      let c := s.cur * 17 / 16
      if c > 8192 then { s with lt := 2, cur := 65528 } else { s with cur := c }
    | 2 =>
      let c := s.cur + 1
      if c > 65560 then { s with lt := 3, cur := 0 } else { s with cur := c }
    | _ =>
      let c := s.cur + 1
      if c > 280 then { s with lt := 1, cur := 768 } else { s with cur := c }
  (decide (s'.lt < 3), s')

/-- The loop of `fuzz_state_increment_sub_states` (src/rle_fuzz.c:212-218), with `i = k - 1`. -/
def incFrom : Nat → List Sub → Bool × List Sub
  | 0, l => (false, l)
  | k + 1, l =>
    match l[k]? with
    | none => (false, l)
    | some s =>
      let r := s.tryIncrement
      if r.1 then (true, l.set k r.2) else incFrom k (l.set k r.2.reset)

/-- `fuzz_state_increment_sub_states` (src/rle_fuzz.c:208-221). -/
def State.incSubs (s : State) : Bool × State :=
  let r := incFrom (min s.states.length s.last1) s.states
  (r.1, { s with states := r.2 })

/-- `fuzz_sub_state_init(&states[i], (i + startSectionType) % _fst_count)` for all states
(src/rle_fuzz.c:230-231, 244-245, 260-261, 345-346). -/
def State.initAll (s : State) : State :=
  { s with states := (List.range s.states.length).map fun i => Sub.init ((i + s.start) % 2) }

/-- `fuzz_state_increment_sub_state_order` (src/rle_fuzz.c:223-234). -/
def State.incOrder (s : State) : Bool × State :=
  let s := { s with start := s.start + 1 }
  if s.start ≥ 2 then (false, s) else (true, s.initAll)

/-- `fuzz_state_increment_symbol_alignment` (src/rle_fuzz.c:236-248). -/
def State.incAlignment (s : State) : Bool × State :=
  if s.symbolBound || s.symbolLength == 1 then (false, s)
  else (true, { s with symbolBound := true, start := 0 }.initAll)

/-- `fuzz_state_increment_symbol_length` (src/rle_fuzz.c:250-264). -/
def State.incLength (s : State) : Bool × State :=
  let s := { s with symbolLength := s.symbolLength + 1 }
  if s.symbolLength > 16 then (false, s)
  else (true, { s with symbolBound := false, start := 0 }.initAll)

/-- `fuzz_state_increment` (src/rle_fuzz.c:266-283). -/
def State.increment (s : State) : Bool × State :=
  let r := s.incSubs
  if r.1 then (true, r.2)
  else
    let r := r.2.incOrder
    if r.1 then (true, r.2)
    else
      let r := r.2.incAlignment
      if r.1 then (true, r.2)
      else
        let r := r.2.incLength
        if r.1 then (true, r.2) else (false, r.2)

/-- The `uint64_t` made of the first eight bytes (src/rle_fuzz.c:117-118). -/
def le64 (f : Nat → Byte) : Nat :=
  (f 0).toNat + 256 * ((f 1).toNat + 256 * ((f 2).toNat + 256 * ((f 3).toNat + 256 * ((f 4).toNat +
    256 * ((f 5).toNat + 256 * ((f 6).toNat + 256 * (f 7).toNat))))))

/-- `fuzz_rand_between` (src/rle_fuzz.c:115-121) with the first eight bytes of draw `k`.
`none`: division by zero. -/
def randBetween (q : Draws) (k lo hi : Nat) : Option Nat :=
  let d := (hi + 2 ^ 64 - lo) % 2 ^ 64
  if d = 0 then none else some ((le64 (q k) % d + lo) % 2 ^ 64)

/-- `fuzz_sub_state_set_random_with_same_type` (src/rle_fuzz.c:137-157), using the draws from `k` on. -/
def Sub.setRandom (q : Draws) (k : Nat) (s : Sub) : Option Sub := do
  let sym ← randBetween q k 0 16
  let d ← randBetween q (k + 1) 0 0x100
  if d < 0xD0 then
    let c ← randBetween q (k + 2) 1 280
    some { s with sym := sym, lt := 0, cur := c }
  else if d < 0xF8 then
    let c ← randBetween q (k + 2) 768 8192
    some { s with sym := sym, lt := 1, cur := c }
  else
    let c ← randBetween q (k + 2) 65528 65560
    some { s with sym := sym, lt := 2, cur := c }

/-- The loop of the random mode over `i < relevantStateCount` (src/rle_fuzz.c:302-306). `none`: a state
behind the array is written. -/
def randomSubs (q : Draws) (start : Nat) : Nat → List Sub → Option (List Sub)
  | 0, l => some l
  | r + 1, l => do
    let l ← randomSubs q start r l
    if r < l.length then
      let s ← (Sub.init ((r + start) % 2)).setRandom q (5 + 3 * r)
      some (l.set r s)
    else none

/-- `reasonableSymbolLengths` (src/rle_fuzz.c:291). -/
def reasonableSymbolLengths : List Nat := [1, 2, 3, 4, 6, 8, 16]

/-- The symbol length of the random mode (src/rle_fuzz.c:293-296). -/
def randomLength (q : Draws) (d : Nat) : Option Nat :=
  if d < 0xD then (randBetween q 1 1 reasonableSymbolLengths.length).bind (reasonableSymbolLengths[·]?)
  else randBetween q 1 1 17

/-- `fuzz_state_advance` (src/rle_fuzz.c:285-309); `q` are the draws it makes. `none`: undefined
behaviour. -/
def State.advance (q : Draws) (s : State) : Option (Bool × State) :=
  if s.iterative then some s.increment
  else do
    let d ← randBetween q 0 0 0x10
    let sl ← randomLength q d
    let b ← randBetween q 2 0 2
    let st ← randBetween q 3 0 2
    let rel ← randBetween q 4 1 s.states.length
    let subs ← randomSubs q st rel s.states
    some (true, { s with symbolLength := sl, symbolBound := decide (b ≠ 0), start := st, relevant := rel, states := subs })

/-- `fuzz_sub_state_get_required_buffer_capacity` (src/rle_fuzz.c:311-314). -/
def State.capacity (s : State) : Nat := s.states.length * 65560 * 16

/-- `fuzz_create` (src/rle_fuzz.c:319-349) when the allocation succeeds; `q` are the draws it makes, four
for each symbol. -/
def create (q : Draws) (n : Nat) (iterative : Bool) : State :=
  State.initAll
    { symbol := fun i j => q (i * 4 + j / 4) (j % 4), symbolLength := 1, symbolBound := false,
      iterative := iterative, relevant := n, last1 := n, start := 0, states := List.replicate n ⟨0, 0, 0, 0⟩ }

/-- The buffer being filled: its `cap` bytes and the number of draws made (src/rle_fuzz.c:360-366). -/
structure Out where
  mem : Mem
  draws : Nat

/-- A write of `k` bytes at `a`. `none`: it leaves the buffer (src/rle_fuzz.c:370-430). -/
def put (cap : Nat) (o : Out) (a k : Nat) (f : Nat → Byte) : Option Out :=
  if a + k ≤ cap then some { o with mem := wr o.mem a k f } else none

/-- The loop over whole draws of a random section (src/rle_fuzz.c:376-380 with `w = 4`, 393-397 with
`w = 16`, both in steps of four). The state is `j` and the buffer. -/
def stepWords (q : Draws) (cap w p len : Nat) (s : Nat × Out) : (Nat × Out) ⊕ Option (Nat × Out) :=
  if s.1 + w ≤ len then
    match put cap s.2 (p + s.1) w (q s.2.draws) with
    | some o => .inl (s.1 + 4, { o with draws := o.draws + 1 })
    | none => .inr none
  else .inr (some s)

/-- The byte loop of a random section in iterative mode (src/rle_fuzz.c:382-383). -/
def stepBytes (q : Draws) (cap p len : Nat) (s : Nat × Out) : (Nat × Out) ⊕ Option (Nat × Out) :=
  if s.1 < len then
    match put cap s.2 (p + s.1) 1 (fun _ => q s.2.draws 0) with
    | some o => .inl (s.1 + 1, { o with draws := o.draws + 1 })
    | none => .inr none
  else .inr (some s)

/-- The byte loop of a random section in random mode (src/rle_fuzz.c:399-405): byte `index` of one draw
`d`. The state is `j`, `index` and the buffer. `none`: `values8` is left. -/
def stepBytesR (d : Nat → Byte) (cap p len : Nat) (s : Nat × Nat × Out) : (Nat × Nat × Out) ⊕ Option Out :=
  if s.1 < len then
    if s.2.1 < 16 then
      match put cap s.2.2 (p + s.1) 1 (fun _ => d s.2.1) with
      | some o => .inl (s.1 + 1, s.2.1 + 1, o)
      | none => .inr none
    else .inr none
  else .inr (some s.2.2)

/-- A random section of `len` bytes at `p` (src/rle_fuzz.c:370-410). -/
def fillRandom (q : Draws) (iterative : Bool) (cap p len : Nat) (o : Out) : Option Out :=
  if iterative then
    ((loop (stepWords q cap 4 p len) (len + 1) (0, o)).bind id).bind fun s =>
      ((loop (stepBytes q cap p len) (len + 1) s).bind id).map fun s => s.2
  else
    ((loop (stepWords q cap 16 p len) (len + 1) (0, o)).bind id).bind fun s =>
      (loop (stepBytesR (q s.2.draws) cap p len) (len + 1)
        (s.1, 0, { s.2 with draws := s.2.draws + 1 })).bind id

/-- The loop over whole symbols (src/rle_fuzz.c:424-425); `sym` points to `fuzz_max_symbol_length` bytes.
`none`: a read behind the symbol. -/
def stepSymbols (sym : Nat → Byte) (cap sl p len : Nat) (s : Nat × Out) : (Nat × Out) ⊕ Option (Nat × Out) :=
  if s.1 + sl ≤ len then
    if sl ≤ 16 then
      match put cap s.2 (p + s.1) sl sym with
      | some o => .inl (s.1 + sl, o)
      | none => .inr none
    else .inr none
  else .inr (some s)

/-- A repeating section of `len` bytes at `p` (src/rle_fuzz.c:420-428). -/
def fillRepeat (sym : Nat → Byte) (cap sl p len : Nat) (o : Out) : Option Out :=
  ((loop (stepSymbols sym cap sl p len) (len + 1) (0, o)).bind id).bind fun s =>
    if s.1 < len then
      if len - s.1 ≤ 16 then put cap s.2 (p + s.1) (len - s.1) sym else none
    else some s.2

/-- Number of bytes of a section (src/rle_fuzz.c:385, 407, 415-418, 430). -/
def State.secLen (s : State) (u : Sub) : Nat :=
  if u.ty = 1 then (if s.symbolBound then u.cur * s.symbolLength else u.cur) else u.cur

/-- The sections `us` one after the other, the first at `p` (src/rle_fuzz.c:364-435). The result is the
end and the buffer. `none`: a symbol index behind `symbol`. -/
def State.fillFrom (q : Draws) (cap : Nat) (s : State) : List Sub → Nat → Out → Option (Nat × Out)
  | [], p, o => some (p, o)
  | u :: us, p, o =>
    (if u.ty = 1 then
        (if u.sym < 16 then fillRepeat (s.symbol u.sym) cap s.symbolLength p (s.secLen u) o else none)
      else fillRandom q s.iterative cap p (s.secLen u) o).bind fun o =>
    s.fillFrom q cap us (p + s.secLen u) o

/-- `fuzz_fill_buffer` (src/rle_fuzz.c:360-438) into a buffer of `cap` bytes that holds `mem`. The result
is the number of bytes and the buffer. `none`: undefined behaviour. -/
def State.fill (q : Draws) (cap : Nat) (mem : Mem) (s : State) : Option (Nat × Mem) :=
  if s.relevant ≤ s.states.length then
    (s.fillFrom q cap (s.states.take s.relevant) 0 ⟨mem, 0⟩).map fun r => (r.1, r.2.mem)
  else none

end Hrk.Fuzz
