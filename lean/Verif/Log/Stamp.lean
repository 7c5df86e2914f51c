import Verif.Log.Fmt

/-!
# C129: the time stamps of log lines (zt_log/log_private.c 73-81)

`strftime(sbuf, 254, "%b %d %H:%M:%S ", localtime(&tt))` in the C locale. Time is POSIX time (no leap seconds), dates are those of the Gregorian calendar from 1970 on; a time zone is
any function from instants to offsets, so daylight saving time is included.
-/

namespace ZT.Log.Stamp

/-! ## Specification: the calendar -/

/-- Leap years of the Gregorian calendar. -/
def leap (y : Nat) : Bool := y % 4 == 0 && (y % 100 != 0 || y % 400 == 0)

/-- The number of days of month `m` (0 is January). -/
def monthDays (y : Nat) : Nat → Nat
  | 1 => if leap y then 29 else 28
  | 3 | 5 | 8 | 10 => 30
  | _ => 31

/-- The number of days of a year before month `m`. -/
def monthStart (y : Nat) : Nat → Nat
  | 0 => 0
  | m + 1 => monthStart y m + monthDays y m

/-- The number of days from the beginning of 1970 to the beginning of the year 1970 + `k`. -/
def yearStart : Nat → Nat
  | 0 => 0
  | k + 1 => yearStart k + if leap (1970 + k) then 366 else 365

/-- The year (counted from 1970) and what localtime puts in `tm_mon`, `tm_mday`, `tm_hour`, `tm_min`, `tm_sec`. -/
structure Date where
  year : Nat
  mon : Nat
  day : Nat
  hour : Nat
  min : Nat
  sec : Nat
  deriving DecidableEq

/-- What localtime gives. -/
structure Date.Valid (d : Date) : Prop where
  mon : d.mon < 12
  first : 1 ≤ d.day
  last : d.day ≤ monthDays (1970 + d.year) d.mon
  hour : d.hour < 24
  min : d.min < 60
  sec : d.sec < 60

/-- Seconds from 1970-01-01 00:00:00 to the date. -/
def Date.instant (d : Date) : Nat := (((yearStart d.year + monthStart (1970 + d.year) d.mon + (d.day - 1)) * 24 + d.hour) * 60 + d.min) * 60 + d.sec

/-- ISO C `localtime` in a zone that is `off t` seconds ahead of UTC at the instant `t`. -/
def Localtime (off : Int → Int) (t : Int) (d : Date) : Prop := d.Valid ∧ (d.instant : Int) = t + off t

/-- The names of "%b" in the C locale. -/
def names : List Str := ["Jan", "Feb", "Mar", "Apr", "May", "Jun", "Jul", "Aug", "Sep", "Oct", "Nov", "Dec"].map fun s => s.toList.map Num.byte

/-- Two decimal digits. -/
def two (n : Nat) : Str := [UInt8.ofNat (48 + n / 10), UInt8.ofNat (48 + n % 10)]

/-- log_private.c 77: strftime with "%b %d %H:%M:%S " -/
def stamp (d : Date) : Str := names.getD d.mon [] ++ [32] ++ two d.day ++ [32] ++ two d.hour ++ [58] ++ two d.min ++ [58] ++ two d.sec ++ [32]

/-- `d` comes before `e` by month, day, hour, minute, second. -/
def Date.Before (d e : Date) : Prop :=
  d.mon < e.mon ∨ d.mon = e.mon ∧ (d.day < e.day ∨ d.day = e.day ∧ (d.hour < e.hour ∨ d.hour = e.hour ∧ (d.min < e.min ∨ d.min = e.min ∧ d.sec < e.sec)))

/-! ## Proof -/

theorem step_exists {f : Nat → Nat} (h0 : f 0 = 0) : ∀ N n, n < f N → ∃ m < N, f m ≤ n ∧ n < f (m + 1)
  | 0, n, h => by omega
  | N + 1, n, h => by
    by_cases hn : n < f N
    · obtain ⟨m, a, b⟩ := step_exists h0 N n hn
      exact ⟨m, by omega, b⟩
    · exact ⟨N, by omega, by omega, h⟩

theorem step_mono {f : Nat → Nat} (h : ∀ m, f m ≤ f (m + 1)) {a b : Nat} (hab : a ≤ b) : f a ≤ f b := by
  induction hab with
  | refl => exact Nat.le_refl _
  | step _ ih => exact Nat.le_trans ih (h _)

theorem step_unique {f : Nat → Nat} (h : ∀ m, f m ≤ f (m + 1)) {n m m' : Nat} (a : f m ≤ n ∧ n < f (m + 1)) (b : f m' ≤ n ∧ n < f (m' + 1)) : m = m' := by
  rcases Nat.lt_trichotomy m m' with k | k | k
  · have := step_mono h (show m + 1 ≤ m' from k); omega
  · exact k
  · have := step_mono h (show m' + 1 ≤ m from k); omega

theorem monthStart_mono (y m : Nat) : monthStart y m ≤ monthStart y (m + 1) := Nat.le_add_right _ _
theorem yearStart_mono (k : Nat) : yearStart k ≤ yearStart (k + 1) := Nat.le_add_right _ _

theorem yearStart_ge : ∀ k, k ≤ yearStart k
  | 0 => Nat.le_refl _
  | k + 1 => by have := yearStart_ge k; simp only [yearStart]; split <;> omega

theorem monthStart_12 (y : Nat) : monthStart y 12 = if leap y then 366 else 365 := by
  simp only [monthStart, monthDays]; split <;> rfl

theorem Date.Valid.month {d : Date} (h : d.Valid) : monthStart (1970 + d.year) d.mon ≤ monthStart (1970 + d.year) d.mon + (d.day - 1) ∧
    monthStart (1970 + d.year) d.mon + (d.day - 1) < monthStart (1970 + d.year) (d.mon + 1) := by
  have := h.first; have := h.last
  simp only [monthStart]
  omega

theorem Date.Valid.year {d : Date} (h : d.Valid) : yearStart d.year ≤ yearStart d.year + (monthStart (1970 + d.year) d.mon + (d.day - 1)) ∧
    yearStart d.year + (monthStart (1970 + d.year) d.mon + (d.day - 1)) < yearStart (d.year + 1) := by
  have a := h.month
  have b := step_mono (monthStart_mono (1970 + d.year)) (show d.mon + 1 ≤ 12 from h.mon)
  rw [monthStart_12] at b
  simp only [yearStart]
  omega

/-- Every instant has a date, and only one. -/
theorem c129_calendar (n : Nat) : ∃ d : Date, d.Valid ∧ d.instant = n ∧ ∀ e : Date, e.Valid → e.instant = n → e = d := by
  have h86 : n / 86400 < yearStart (n / 86400 + 1) := yearStart_ge _
  obtain ⟨y, -, y1, y2⟩ := step_exists (f := yearStart) rfl _ _ h86
  have hm : n / 86400 - yearStart y < monthStart (1970 + y) 12 := by rw [monthStart_12]; simp only [yearStart] at y2; omega
  obtain ⟨m, m0, m1, m2⟩ := step_exists (f := monthStart (1970 + y)) rfl _ _ hm
  have u : ∀ d e : Date, d.Valid → e.Valid → d.instant = e.instant → d = e := by
    intro d e hd he h
    have a := hd.year; have b := he.year
    have a' := hd.month; have b' := he.month
    obtain ⟨dy, dm, dd, dh, dmi, ds⟩ := d
    obtain ⟨ey, em, ed, eh, emi, es⟩ := e
    obtain ⟨v1, v2, v3, v4, v5, v6⟩ := hd
    obtain ⟨w1, w2, w3, w4, w5, w6⟩ := he
    simp only [Date.instant] at *
    have hy : dy = ey := step_unique yearStart_mono a (by rw [show yearStart dy + (monthStart (1970 + dy) dm + (dd - 1)) = yearStart ey + (monthStart (1970 + ey) em + (ed - 1)) by omega]; exact b)
    subst hy
    have hm : dm = em := step_unique (monthStart_mono (1970 + dy)) a' (by rw [show monthStart (1970 + dy) dm + (dd - 1) = monthStart (1970 + dy) em + (ed - 1) by omega]; exact b')
    subst hm
    simp only [Date.mk.injEq, true_and]
    omega
  have hv : (Date.mk y m (n / 86400 - yearStart y - monthStart (1970 + y) m + 1) (n / 3600 % 24) (n / 60 % 60) (n % 60)).Valid := by
    refine ⟨m0, Nat.le_add_left _ _, ?_, Nat.mod_lt _ (by decide), Nat.mod_lt _ (by decide), Nat.mod_lt _ (by decide)⟩
    simp only [monthStart] at m2 ⊢
    omega
  have hi : (Date.mk y m (n / 86400 - yearStart y - monthStart (1970 + y) m + 1) (n / 3600 % 24) (n / 60 % 60) (n % 60)).instant = n := by
    simp only [Date.instant]
    omega
  exact ⟨_, hv, hi, fun e he h => u e _ he hv (by rw [h, hi])⟩

theorem monthDays_le (y m : Nat) : monthDays y m ≤ 31 := by unfold monthDays; split <;> (try split) <;> decide

theorem two_inj {a b : Nat} (ha : a < 100) (hb : b < 100) (h : two a = two b) : a = b := by
  simp only [two, List.cons.injEq, ← UInt8.toNat_inj, UInt8.toNat_ofNat'] at h
  omega

theorem names_form : ∀ m < 12, (names.getD m []).length = 3 ∧ ∀ b ∈ names.getD m [], b ≠ 0 ∧ b ≠ 10 ∧ b ≠ 37 := by decide +kernel
theorem names_inj : ∀ m < 12, ∀ m' < 12, names.getD m [] = names.getD m' [] → m = m' := by decide +kernel

theorem two_form {n : Nat} (h : n < 100) : ∀ b ∈ two n, b ≠ 0 ∧ b ≠ 10 ∧ b ≠ 37 := by
  intro b hb
  simp only [two, List.mem_cons, List.not_mem_nil, or_false] at hb
  rcases hb with rfl | rfl <;> simp only [ne_eq, ← UInt8.toNat_inj, UInt8.toNat_ofNat'] <;> (refine ⟨?_, ?_, ?_⟩ <;> (intro e; simp at e; omega))

/-- The stamp of every date fits its buffer (254 bytes), is a text of one line, and no part of it is a conversion when it becomes part of a format. -/
theorem c129_form {d : Date} (h : d.Valid) : (stamp d).length = 16 ∧ ∀ b ∈ stamp d, b ≠ 0 ∧ b ≠ 10 ∧ b ≠ 37 := by
  obtain ⟨n1, n2⟩ := names_form d.mon h.mon
  have hd : d.day < 100 := by have := monthDays_le (1970 + d.year) d.mon; have := h.last; omega
  have t1 := two_form hd
  have t2 := two_form (show d.hour < 100 by have := h.hour; omega)
  have t3 := two_form (show d.min < 100 by have := h.min; omega)
  have t4 := two_form (show d.sec < 100 by have := h.sec; omega)
  refine ⟨by simp only [stamp, two, List.length_append, n1, List.length_cons, List.length_nil], ?_⟩
  intro b hb
  simp only [stamp, List.mem_append, List.mem_singleton] at hb
  rcases hb with ((((((((hb | hb) | hb) | hb) | hb) | hb) | hb) | hb) | hb) | hb
  all_goals first | exact n2 b hb | exact t1 b hb | exact t2 b hb | exact t3 b hb | exact t4 b hb | (subst hb; decide)

/-- The number a text of digits stands for. -/
def value (s : Str) : Nat := s.foldl (fun a c => 10 * a + (c.toNat - 48)) 0

theorem value_two {n : Nat} (h : n < 100) : value (two n) = n := by
  simp only [value, two, List.foldl_cons, List.foldl_nil, UInt8.toNat_ofNat']
  omega

theorem cut {a b c : Str} {n k : Nat} (h : a.length = n) (h' : b.length = k) : ((a ++ (b ++ c)).drop n).take k = b := by
  rw [← h, List.drop_left, ← h', List.take_left]

/-- What stands in the columns of the stamp: name of the month, and day, hour, minute and second as decimal numbers. -/
theorem c129_columns {d : Date} (h : d.Valid) : (stamp d).take 3 = names.getD d.mon [] ∧ value (((stamp d).drop 4).take 2) = d.day ∧ value (((stamp d).drop 7).take 2) = d.hour ∧
    value (((stamp d).drop 10).take 2) = d.min ∧ value (((stamp d).drop 13).take 2) = d.sec := by
  obtain ⟨n1, -⟩ := names_form d.mon h.mon
  have hd : d.day < 100 := by have := monthDays_le (1970 + d.year) d.mon; have := h.last; omega
  have t : ∀ n, (two n).length = 2 := fun _ => rfl
  have f1 := cut (a := []) (b := names.getD d.mon []) (c := [32] ++ two d.day ++ [32] ++ two d.hour ++ [58] ++ two d.min ++ [58] ++ two d.sec ++ [32]) (n := 0) rfl n1
  have f2 := cut (a := names.getD d.mon [] ++ [32]) (c := [32] ++ two d.hour ++ [58] ++ two d.min ++ [58] ++ two d.sec ++ [32]) (n := 4) (by rw [List.length_append, n1]; rfl) (t d.day)
  have f3 := cut (a := names.getD d.mon [] ++ [32] ++ two d.day ++ [32]) (c := [58] ++ two d.min ++ [58] ++ two d.sec ++ [32]) (n := 7) (by simp only [List.length_append, n1, t]; rfl) (t d.hour)
  have f4 := cut (a := names.getD d.mon [] ++ [32] ++ two d.day ++ [32] ++ two d.hour ++ [58]) (c := [58] ++ two d.sec ++ [32]) (n := 10) (by simp only [List.length_append, n1, t]; rfl) (t d.min)
  have f5 := cut (a := names.getD d.mon [] ++ [32] ++ two d.day ++ [32] ++ two d.hour ++ [58] ++ two d.min ++ [58]) (c := [32]) (n := 13) (by simp only [List.length_append, n1, t]; rfl) (t d.sec)
  simp only [List.append_assoc, List.nil_append, List.drop_zero] at f1 f2 f3 f4 f5
  simp only [stamp, List.append_assoc]
  rw [f1, f2, f3, f4, f5]
  exact ⟨rfl, value_two hd, value_two (by have := h.hour; omega), value_two (by have := h.min; omega), value_two (by have := h.sec; omega)⟩

/-- The stamp tells month, day, hour, minute and second. -/
theorem c129_read {d e : Date} (hd : d.Valid) (he : e.Valid) (h : stamp d = stamp e) : d.mon = e.mon ∧ d.day = e.day ∧ d.hour = e.hour ∧ d.min = e.min ∧ d.sec = e.sec := by
  have n1 := (names_form d.mon hd.mon).1
  have n2 := (names_form e.mon he.mon).1
  have l1 := monthDays_le (1970 + d.year) d.mon
  have l2 := monthDays_le (1970 + e.year) e.mon
  obtain ⟨v1, v2, v3, v4, v5, v6⟩ := hd
  obtain ⟨w1, w2, w3, w4, w5, w6⟩ := he
  simp only [stamp, List.append_assoc] at h
  obtain ⟨a, h⟩ := List.append_inj h (by omega)
  simp only [two, List.cons_append, List.nil_append, List.cons.injEq, ← UInt8.toNat_inj, UInt8.toNat_ofNat'] at h
  refine ⟨names_inj _ v1 _ w1 a, ?_⟩
  omega

theorem before_instant {d e : Date} (hd : d.Valid) (he : e.Valid) (hy : d.year = e.year) : d.instant < e.instant ↔ d.Before e := by
  have a := hd.month; have b := he.month
  obtain ⟨dy, dm, dd, dh, dmi, ds⟩ := d
  obtain ⟨ey, em, ed, eh, emi, es⟩ := e
  simp only at hy
  subst hy
  obtain ⟨v1, v2, v3, v4, v5, v6⟩ := hd
  obtain ⟨w1, w2, w3, w4, w5, w6⟩ := he
  simp only [Date.instant, Date.Before] at *
  rcases Nat.lt_trichotomy dm em with k | k | k
  · have := step_mono (monthStart_mono (1970 + dy)) (show dm + 1 ≤ em from k); omega
  · subst k; omega
  · have := step_mono (monthStart_mono (1970 + dy)) (show em + 1 ≤ dm from k); omega

/-- In one year and with one offset from UTC, the stamp determines the instant, -/
theorem c129_instant {off : Int → Int} {t u : Int} {d e : Date} (hd : Localtime off t d) (he : Localtime off u e) (hy : d.year = e.year) (ho : off t = off u) (h : stamp d = stamp e) : t = u := by
  obtain ⟨a, b, c, f, g⟩ := c129_read hd.1 he.1 h
  have : d = e := by cases d; cases e; simp_all
  subst this
  have := hd.2; have := he.2
  omega

/-- and later instants have later months, days, hours, minutes and seconds. -/
theorem c129_order {off : Int → Int} {t u : Int} {d e : Date} (hd : Localtime off t d) (he : Localtime off u e) (hy : d.year = e.year) (ho : off t = off u) : t < u ↔ d.Before e := by
  rw [← before_instant hd.1 he.1 hy]
  have := hd.2; have := he.2
  omega

theorem leap_400 (y : Nat) : leap (y + 400) = leap y := by
  unfold leap
  rw [show (y + 400) % 4 = y % 4 by omega, show (y + 400) % 100 = y % 100 by omega, show (y + 400) % 400 = y % 400 by omega]

/-- The year is missing: every stamp belongs to instants of other years too. -/
theorem c129_year_violation {t : Int} {d : Date} (h : Localtime (fun _ => 0) t d) : ∃ u e, u ≠ t ∧ Localtime (fun _ => 0) u e ∧ stamp e = stamp d := by
  have hl : leap (1970 + (d.year + 400)) = leap (1970 + d.year) := by rw [← Nat.add_assoc]; exact leap_400 _
  have hm : monthDays (1970 + (d.year + 400)) d.mon = monthDays (1970 + d.year) d.mon := by unfold monthDays; rw [hl]
  have hv : ({ d with year := d.year + 400 } : Date).Valid := ⟨h.1.1, h.1.2, by rw [hm]; exact h.1.3, h.1.4, h.1.5, h.1.6⟩
  refine ⟨_, { d with year := d.year + 400 }, ?_, ⟨hv, by rw [Int.add_zero]⟩, rfl⟩
  intro e
  have h2 := h.2
  have a := h.1.year; have b := hv.year
  have : d.year + 1 ≤ d.year + 400 := by omega
  have := step_mono yearStart_mono this
  simp only [Date.instant] at *
  omega

/-- When clocks are set back, the stamps of an hour come twice. -/
theorem c129_zone_violation {off : Int → Int} {t u : Int} {d : Date} (h : Localtime off t d) (ho : off u = off t - (u - t)) : Localtime off u d :=
  ⟨h.1, by rw [h.2, ho]; omega⟩

/-- 1 January 1970 -/
def jan : Date := ⟨0, 0, 1, 0, 0, 0⟩
/-- 1 April 1970 -/
def apr : Date := ⟨0, 3, 1, 0, 0, 0⟩

/-- Sorting lines as text does not sort them by time. -/
theorem c129_sort_violation : jan.Valid ∧ apr.Valid ∧ jan.instant < apr.instant ∧ stamp apr < stamp jan :=
  ⟨by constructor <;> decide, by constructor <;> decide, by decide, by decide +kernel⟩

/-- A line logged with its date alone: stamp, colon, message, location. -/
theorem c129_line (junk : Byte) {off : Int → Int} {t : Int} {d : Date} (hd : Localtime off t d) (env : Env) (hs : env.date = stamp d) (hh : ∀ h, env.host = some h → NoNul h) (hp : NoNul env.prog)
    (hi : env.pid < 2 ^ 32) (fmt : Str) (hf : NoNul fmt) (as : List Arg) (m : Str) (hm : printf fmt as = some m) (file func : Option Str) (line : Int) (hl : line < 2 ^ 31)
    (hfile : ∀ f, file = some f → NoNul f) (hfunc : ∀ f, func = some f → NoNul f) (level : Nat) (h2 : (37 : Byte) ∉ footer file line func) :
    printLine junk env fmt as file line func level WITH_DATE = .ok (stamp d ++ [58, 32] ++ m ++ footer file line func ++ [10]) := by
  obtain ⟨-, k⟩ := c129_form hd.1
  have hh' : header env level WITH_DATE = stamp d ++ [58, 32] := by simp [header, hs, has, WITH_DATE, WITH_SYSNAME, WITH_PROGNAME, WITH_PID, WITH_LEVEL]
  have r := c75_line_partial junk env ⟨by rw [hs]; exact fun b hb => (k b hb).1, hh, hp, hi⟩ fmt hf as m hm file func line hl hfile hfunc level WITH_DATE
    (by rw [hh']; intro h; rcases List.mem_append.1 h with h | h; · exact (k _ h).2.2 rfl
        · revert h; decide) h2
  rw [r, hh']

/-- 29 February 2000, 12:34:56 UTC -/
example : Localtime (fun _ => 0) 951827696 ⟨30, 1, 29, 12, 34, 56⟩ := ⟨by constructor <;> decide, by decide⟩
example : stamp ⟨30, 1, 29, 12, 34, 56⟩ = "Feb 29 12:34:56 ".toList.map Num.byte := by decide +kernel
/-- Clocks set back at the instant 1729990800 from two hours to one hour ahead of UTC. -/
example : ∃ d, Localtime (fun t => if t < 1729990800 then 7200 else 3600) (1729990800 - 1800) d ∧ Localtime (fun t => if t < 1729990800 then 7200 else 3600) (1729990800 + 1800) d := by
  obtain ⟨d, v, i, -⟩ := c129_calendar (1729990800 + 5400)
  have h : Localtime (fun t => if t < 1729990800 then 7200 else 3600) (1729990800 - 1800) d := ⟨v, by rw [i]; rfl⟩
  exact ⟨d, h, c129_zone_violation h rfl⟩

end ZT.Log.Stamp
