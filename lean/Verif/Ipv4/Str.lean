import Verif.Ipv4.Text

/-! # C81 and C82: the text helpers and the table used through texts -/

namespace ZT.Ipv4

/-! ## zt_ipv4_ip2int and zt_ipv4_int2ip -/

/-- The four bytes of a `uint32_t` in memory: the least significant one first if the host is little endian. -/
def memBytes (le : Bool) (x : Nat) : List Nat :=
  let l := [x % 256, x / 2 ^ 8 % 256, x / 2 ^ 16 % 256, x / 2 ^ 24 % 256]
  if le then l else l.reverse

/-- libc `ntohl`: the bytes in memory, read as a big endian number. -/
def ntohl (le : Bool) (x : Nat) : Nat := (memBytes le x).foldl (fun acc b => acc * 256 + b) 0

/-- libc `inet_ntoa`: the bytes in memory, in decimal, separated by dots. -/
def inetNtoa (le : Bool) (s : Nat) : List Byte :=
  match memBytes le s with
  | [a, b, c, d] => Spec.dec a ++ 46 :: Spec.dec b ++ 46 :: Spec.dec c ++ 46 :: Spec.dec d
  | _ => []

/-- zt_ipv4_tbl.c 315-319 `zt_ipv4_ip2int`; `inetAddr` is libc `inet_addr`. -/
def ip2int (le : Bool) (inetAddr : List Byte → Nat) (str : List Byte) : Outcome Nat := do
  let n ← strlen str
  pure (ntohl le (inetAddr (str.take n)))

/-- zt_ipv4_tbl.c 321-329 `zt_ipv4_int2ip`: the new C string (`strdup`). -/
def int2ip (le : Bool) (addr : Nat) : List Byte := inetNtoa le (ntohl le addr) ++ [0]

namespace Spec

/-- Dotted decimal text of a 32-bit address, most significant byte first. -/
def ipText (x : Nat) : List Byte := dotted (x / 2 ^ 24) (x / 2 ^ 16 % 256) (x / 2 ^ 8 % 256) (x % 256)

/-- The text `a.b.c.d/n` of a network. -/
def cidr (n : Net) : List Byte := ipText n.ip ++ 47 :: dec n.len

end Spec

theorem ntohl_bytes (le : Bool) (x : Nat) (h : x < 2 ^ 32) : memBytes le (ntohl le x) = [x / 2 ^ 24, x / 2 ^ 16 % 256, x / 2 ^ 8 % 256, x % 256] := by
  cases le
  · simp only [ntohl, memBytes, Bool.false_eq_true, if_false, List.reverse_cons, List.reverse_nil, List.nil_append, List.cons_append, List.foldl_cons, List.foldl_nil]
    simp only [List.cons.injEq, and_true]
    omega
  · simp only [ntohl, memBytes, if_true, List.foldl_cons, List.foldl_nil, List.cons.injEq, and_true]
    have hs : x / 2 ^ 24 = x / 2 ^ 24 % 256 := by omega
    rw [hs]
    have p0 : x % 256 < 256 := by omega
    have q0 : x / 2 ^ 8 % 256 < 256 := by omega
    have r0 : x / 2 ^ 16 % 256 < 256 := by omega
    have s0 : x / 2 ^ 24 % 256 < 256 := by omega
    revert p0 q0 r0 s0
    generalize x % 256 = p
    generalize x / 2 ^ 8 % 256 = q
    generalize x / 2 ^ 16 % 256 = r
    generalize x / 2 ^ 24 % 256 = s
    intro p0 q0 r0 s0
    omega

/-- **C81 (address to text).** On hosts of either byte order, the text is the dotted decimal form, most significant byte first. -/
theorem c81_text (le : Bool) (x : Nat) (h : x < 2 ^ 32) : int2ip le x = Spec.ipText x ++ [0] := by
  rw [int2ip, inetNtoa, ntohl_bytes le x h]; rfl

/-- What is assumed of libc `inet_addr`: for a dotted decimal address its bytes, in memory, are the four numbers in that order. -/
def InetAddrOk (le : Bool) (inetAddr : List Byte → Nat) : Prop :=
  ∀ a b c d, a < 256 → b < 256 → c < 256 → d < 256 → memBytes le (inetAddr (Spec.dotted a b c d)) = [a, b, c, d]

/-- So `ntohl(inet_addr(s))` is the number. -/
theorem inetOk_of {le : Bool} {f : List Byte → Nat} (h : InetAddrOk le f) : InetOk fun s => ntohl le (f s) := by
  intro a b c d ha hb hc hd
  simp only [ntohl, h a b c d ha hb hc hd, List.foldl_cons, List.foldl_nil, Spec.quad]
  omega

theorem quad_ip (x : Nat) : Spec.quad (x / 2 ^ 24) (x / 2 ^ 16 % 256) (x / 2 ^ 8 % 256) (x % 256) = x := by
  simp only [Spec.quad]; omega

/-- **C81 (text to address).** -/
theorem c81_parse {le : Bool} {f : List Byte → Nat} (hf : InetAddrOk le f) {a b c d : Nat} (ha : a < 256) (hb : b < 256) (hc : c < 256) (hd : d < 256) (rest : List Byte) :
    ip2int le f (Spec.dotted a b c d ++ 0 :: rest) = .ok (a * 2 ^ 24 + b * 2 ^ 16 + c * 2 ^ 8 + d) := by
  obtain ⟨_, hp⟩ := dotted_props ha hb hc hd
  rw [ip2int, strlen_eq _ _ (fun x hx => (hp x hx).1)]
  simp only [Outcome.ok_bind, Outcome.pure_eq]
  rw [List.take_left' rfl]
  exact congrArg Outcome.ok (inetOk_of hf a b c d ha hb hc hd)

/-- **C81 (round trip).** Every address survives the conversion to text and back. -/
theorem c81_roundtrip {le : Bool} {f : List Byte → Nat} (hf : InetAddrOk le f) {x : Nat} (h : x < 2 ^ 32) : ip2int le f (int2ip le x) = .ok x := by
  rw [c81_text le x h, Spec.ipText, c81_parse hf (by omega) (by omega) (by omega) (by omega)]
  exact congrArg Outcome.ok (by omega)

/-- An implementation of `inet_addr` for either byte order: `ntohl` is its own inverse. -/
theorem inetAddrRef_ok (le : Bool) : InetAddrOk le fun s => ntohl le (inetRef s) := by
  intro a b c d ha hb hc hd
  have hq : Spec.quad a b c d < 2 ^ 32 := by simp only [Spec.quad]; omega
  simp only [inetRef_ok a b c d ha hb hc hd]
  rw [ntohl_bytes le _ hq]
  simp only [Spec.quad, List.cons.injEq, and_true]
  omega

example : int2ip true 0xC0A80307 = [49, 57, 50, 46, 49, 54, 56, 46, 51, 46, 55, 0] := by decide +kernel

/-! ## The table used through texts -/

/-- Blocks in use of the pools "zt_ipv4_node" and "zt_ipv4_addr". -/
structure Use where
  nodes : Nat
  addrs : Nat
  deriving Repr, DecidableEq

/-- zt_ipv4_tbl.c 99-125 `zt_ipv4_node_str_init`: the node is allocated before the text is parsed, and not released if that fails. -/
def nodeStrInit (inet : List Byte → Nat) (u : Use) (str : List Byte) : Outcome (Option Addr × Use) := do
  match ← addrFrmStr inet str with
  | none => pure (none, { u with nodes := u.nodes + 1 })
  | some a => pure (some a, ⟨u.nodes + 1, u.addrs + 1⟩)

/-- zt_ipv4_tbl.c 211-236 `zt_ipv4_tbl_add_frm_str`; `node` is the address of the new node. -/
def addFrmStr (inet : List Byte → Nat) (slots : Nat) (h : Heap) (t : Tbl) (u : Use) (node : Nat) (str : List Byte) : Outcome (Heap × Tbl × Use × Option Nat) :=
  match t.any with
  | some a => .ok (h, t, u, some a)
  | none => do
      match ← nodeStrInit inet u str with
      | (none, u) => pure (h, t, u, none)
      | (some a, u) => do
          let (h, t) ← addNode slots (nodeInit h node a) t node
          pure (h, t, u, some node)

/-- zt_ipv4_tbl.c 291-309 `zt_ipv4_tbl_search_from_str`: the node is released, its address record is not. -/
def searchFromStr (inet : List Byte → Nat) (h : Heap) (t : Tbl) (u : Use) (str : List Byte) (fuel : Nat) : Outcome (Option Nat × Use) := do
  match ← nodeStrInit inet u str with
  | (none, u) => pure (none, u)
  | (some a, u) => do
      let m ← search h t a fuel
      pure (m, { u with nodes := u.nodes - 1 })

/-- One addition: the address of the new node, the network, and what follows its text in memory. -/
abbrev TEntry := Nat × Net × List Byte

/-- The text of an addition as the caller passes it. -/
def TEntry.text (e : TEntry) : List Byte := Spec.cidr e.2.1 ++ 0 :: e.2.2

/-- The additions one after the other. -/
def addTexts (inet : List Byte → Nat) (slots : Nat) : Heap → Tbl → Use → List TEntry → Outcome (Heap × Tbl × Use)
  | h, t, u, [] => .ok (h, t, u)
  | h, t, u, e :: es => do
      let (h, t, u, _) ← addFrmStr inet slots h t u e.1 e.text
      addTexts inet slots h t u es

theorem addrFrmStr_cidr {inet : List Byte → Nat} (hi : InetOk inet) {n : Net} (v : n.Valid) (rest : List Byte) :
    addrFrmStr inet (Spec.cidr n ++ 0 :: rest) = .ok (some (addrOf n)) := by
  obtain ⟨v1, v2⟩ := v
  obtain ⟨_, hd, hv⟩ := dec_props n.len (by omega)
  have := c25_parse hi (a := n.ip / 2 ^ 24) (b := n.ip / 2 ^ 16 % 256) (c := n.ip / 2 ^ 8 % 256) (d := n.ip % 256) (by omega) (by omega) (by omega) (by omega)
    (ds := Spec.dec n.len) (fun x hx => (hd x hx).2.2.2) (by rw [hv]; omega) rest
  rw [hv, Nat.min_eq_left v2, quad_ip] at this
  exact this

theorem addFrmStr_cidr {inet : List Byte → Nat} (hi : InetOk inet) {n : Net} (v : n.Valid) (rest : List Byte) (slots : Nat) (h : Heap) (t : Tbl) (u : Use) (id : Nat) :
    addFrmStr inet slots h t u id (Spec.cidr n ++ 0 :: rest) =
      (add slots h t id n.ip n.len >>= fun r => .ok (r.1, r.2.1, if t.any.isSome then u else ⟨u.nodes + 1, u.addrs + 1⟩, some r.2.2)) := by
  rw [addFrmStr, add]
  cases t.any with
  | some a => rfl
  | none =>
      simp only [nodeStrInit, addrFrmStr_cidr hi v rest, mkAddr_eq v, Outcome.ok_bind, Outcome.pure_eq, Outcome.bind_assoc]
      rfl

theorem addTexts_eq {inet : List Byte → Nat} (hi : InetOk inet) {slots : Nat} : ∀ (es : List TEntry) (h : Heap) (t : Tbl) (u : Use), (∀ e ∈ es, e.2.1.Valid) →
    ∀ h' t', addAll slots h t (es.map fun e => (e.1, e.2.1)) = .ok (h', t') →
    ∃ u', addTexts inet slots h t u es = .ok (h', t', u') ∧ u.nodes ≤ u'.nodes ∧ u'.nodes ≤ u.nodes + es.length ∧ u'.nodes - u.nodes = u'.addrs - u.addrs ∧ u.addrs ≤ u'.addrs := by
  intro es
  induction es with
  | nil =>
      intro h t u _ h' t' he
      cases he
      exact ⟨u, rfl, by simp, by simp, by omega, by simp⟩
  | cons e es ih =>
      intro h t u hv h' t' he
      rw [List.map_cons, addAll] at he
      obtain ⟨⟨h1, t1, i⟩, e1, e2⟩ := Outcome.bind_eq_ok.1 he
      obtain ⟨u', q1, q2, q3, q4, q5⟩ := ih h1 t1 (if t.any.isSome then u else ⟨u.nodes + 1, u.addrs + 1⟩) (fun x hx => hv x (by simp [hx])) h' t' e2
      refine ⟨u', ?_, ?_⟩
      · rw [addTexts, TEntry.text, addFrmStr_cidr hi (hv e (by simp)), e1]
        exact q1
      · split at q2 <;> simp_all <;> omega

/-- **C82 (partial).** Networks given as texts `a.b.c.d/n` are added to a new table, in any number, and a text is searched: as long as not all of the 32 prefix lengths
1..32 occur, every addition succeeds, the search ends, its result is NULL iff no added network contains the searched one, and otherwise the node of one that does.
Missing: tables with all 32 prefix lengths (`c24_full_table`), and the memory use (`c82_leak_violation`). -/
theorem c82_search_partial {inet : List Byte → Nat} (hi : InetOk inet) (slots size : Nat) (hsz : (init size).sz ≤ slots) (h0 : Heap) (u0 : Use) (es : List TEntry)
    (hv : ∀ e ∈ es, e.2.1.Valid) (hnd : (es.map (·.1)).Nodup)
    (hlen : (∃ e ∈ es, e.2.1.len = 0) ∨ ∃ b, 0 < b ∧ b ≤ 32 ∧ ∀ e ∈ es, e.2.1.len ≠ b) (m : Net) (vm : m.Valid) (rest : List Byte) :
    ∃ h t u, addTexts inet slots h0 (init size) u0 es = .ok (h, t, u) ∧ ∃ r, Runs (searchFromStr inet h t u (Spec.cidr m ++ 0 :: rest)) (r, ⟨u.nodes, u.addrs + 1⟩) ∧
      (r = none ↔ ∀ e ∈ es, ¬ Spec.Contains e.2.1 m) ∧ (∀ i, r = some i → ∃ e ∈ es, e.1 = i ∧ Spec.Contains e.2.1 m) := by
  obtain ⟨h, t, e1, r, ⟨k, e2⟩, e3, e4⟩ := c24_search_partial slots size hsz h0 (es.map fun e => (e.1, e.2.1)) (fun x hx => by
      obtain ⟨e, he, rfl⟩ := List.mem_map.1 hx
      exact hv e he) (by rw [List.map_map]; exact hnd)
    (by
      rcases hlen with ⟨e, he, h0⟩ | ⟨b, b1, b2, b3⟩
      · exact Or.inl ⟨(e.1, e.2.1), List.mem_map.2 ⟨e, he, rfl⟩, h0⟩
      · refine Or.inr ⟨b, b1, b2, fun x hx => ?_⟩
        obtain ⟨e, he, rfl⟩ := List.mem_map.1 hx
        exact b3 e he) m vm
  obtain ⟨u, f1, _⟩ := addTexts_eq hi es h0 (init size) u0 hv h t e1
  refine ⟨h, t, u, f1, r, ⟨k, fun fuel hf => ?_⟩, ?_, ?_⟩
  · rw [searchFromStr, nodeStrInit, addrFrmStr_cidr hi vm]
    simp only [Outcome.ok_bind, Outcome.pure_eq]
    rw [e2 fuel hf]
    simp
  · rw [e3]
    constructor
    · intro hn e he; exact hn (e.1, e.2.1) (List.mem_map.2 ⟨e, he, rfl⟩)
    · intro hn x hx
      obtain ⟨e, he, rfl⟩ := List.mem_map.1 hx
      exact hn e he
  · intro i hi
    obtain ⟨x, hx, h1, h2⟩ := e4 i hi
    obtain ⟨e, he, rfl⟩ := List.mem_map.1 hx
    exact ⟨e, he, h1, h2⟩

/-- `k` searches for the same text. -/
def searches (inet : List Byte → Nat) (h : Heap) (t : Tbl) (str : List Byte) (fuel : Nat) : Nat → Use → Outcome Use
  | 0, u => .ok u
  | k + 1, u => do
      let (_, u) ← searchFromStr inet h t u str fuel
      searches inet h t str fuel k u

/-- Violation of C82: a search is not free of effects. Each one leaves its address record allocated, in every table in which it succeeds, so `k` searches cost `k` records. -/
theorem c82_leak_violation {inet : List Byte → Nat} (hi : InetOk inet) (h : Heap) (t : Tbl) (m : Net) (vm : m.Valid) (rest : List Byte) (r : Option Nat) (fuel : Nat)
    (hs : search h t (addrOf m) fuel = .ok r) : ∀ (k : Nat) (u : Use), searches inet h t (Spec.cidr m ++ 0 :: rest) fuel k u = .ok ⟨u.nodes, u.addrs + k⟩ := by
  intro k
  induction k with
  | zero => intro u; rfl
  | succ k ih =>
      intro u
      rw [searches, searchFromStr, nodeStrInit, addrFrmStr_cidr hi vm]
      simp only [Outcome.ok_bind, Outcome.pure_eq, hs]
      rw [ih]
      simp only [Nat.add_sub_cancel, Outcome.ok.injEq, Use.mk.injEq, true_and]
      omega

/-- Violation of C82: a text whose address part has more than 15 characters is refused, but its node stays allocated. -/
theorem c82_refused_violation (inet : List Byte → Nat) (h : Heap) (t : Tbl) (u : Use) (fuel : Nat) :
    searchFromStr inet h t u (List.replicate 16 49 ++ [47, 56, 0]) fuel = .ok (none, ⟨u.nodes + 1, u.addrs⟩) := rfl

/-- **C82 (refused).** A text with more than 15 characters before the '/' is refused: adding it answers NULL and leaves the table as it was (unless the table has an entry for all addresses, which is then the answer), and
searching for it finds nothing. -/
theorem c82_refused (inet : List Byte → Nat) {s ds : List Byte} (hs : ∀ x ∈ s, x ≠ 0 ∧ x ≠ 47) (hl : 15 < s.length) (hd : ∀ x ∈ ds, x ≠ 0) (rest : List Byte) (slots : Nat) (h : Heap) (t : Tbl) (u : Use) (node fuel : Nat) :
    (∃ u', addFrmStr inet slots h t u node (s ++ 47 :: ds ++ 0 :: rest) = .ok (h, t, u', t.any)) ∧ ∃ u', searchFromStr inet h t u (s ++ 47 :: ds ++ 0 :: rest) fuel = .ok (none, u') := by
  have h0 : ∀ x ∈ s ++ 47 :: ds, x ≠ 0 := by
    intro x hx
    rcases List.mem_append.1 hx with h | h
    · exact (hs x h).1
    · rcases List.mem_cons.1 h with rfl | h
      · decide
      · exact hd x h
  have h1 : addrFrmStr inet (s ++ 47 :: ds ++ 0 :: rest) = .ok none := by
    rw [addrFrmStr, str2net, strlen_eq _ _ h0]
    simp only [Outcome.ok_bind]
    rw [strlen_take, idxOf?_slash (fun x hx => (hs x hx).2)]
    simp only
    rw [if_pos (by omega)]
    rfl
  have h2 : nodeStrInit inet u (s ++ 47 :: ds ++ 0 :: rest) = .ok (none, { u with nodes := u.nodes + 1 }) := by
    rw [nodeStrInit, h1]; rfl
  constructor
  · rw [addFrmStr]
    cases t.any with
    | some a => exact ⟨u, rfl⟩
    | none => simp only; rw [h2]; exact ⟨_, rfl⟩
  · rw [searchFromStr, h2]; exact ⟨_, rfl⟩

/-- 10.0.0.0/8 and 192.168.0.0/16, then the search for 192.168.3.7/32. -/
example : (⟨0x0A000000, 8⟩ : Net).Valid ∧ (⟨0xC0A80000, 16⟩ : Net).Valid ∧ Spec.cidr ⟨0xC0A80307, 32⟩ = [49, 57, 50, 46, 49, 54, 56, 46, 51, 46, 55, 47, 51, 50] ∧
    Spec.Contains ⟨0xC0A80000, 16⟩ ⟨0xC0A80307, 32⟩ ∧ ¬ Spec.Contains ⟨0x0A000000, 8⟩ ⟨0xC0A80307, 32⟩ := by decide +kernel

/-- "255.255.255.2550/8" meets the hypotheses of `c82_refused`. -/
example : ∃ s : List Byte, s = [50, 53, 53, 46, 50, 53, 53, 46, 50, 53, 53, 46, 50, 53, 53, 48] ∧ (∀ x ∈ s, x ≠ 0 ∧ x ≠ 47) ∧ 15 < s.length := ⟨_, rfl, by decide, by decide⟩

end ZT.Ipv4
