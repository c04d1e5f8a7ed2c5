/-
What it means for a chip to be in good order: the specification behind C37, C38 and C48.
-/
import Verif.Model.Map
namespace Dhara

/-- No program and no erase operation ever fails (power failures and read errors may occur). -/
def Healthy (c : Cfg) : Prop := ∀ t, c.env.prog t ≠ .fail ∧ c.env.erase t ≠ .fail

/-- Nothing ever goes wrong: no program, erase or read fails and the power stays on. -/
def Faultless (c : Cfg) : Prop := ∀ t, c.env.prog t = .ok ∧ c.env.erase t = .ok ∧ ∀ p, c.env.readFail t p = false

/-- No block is marked bad. -/
def Sound (c : Cfg) (n : Nand) : Prop := ∀ b, b < c.numBlocks → n.chip.bad b = false

/-- No page of the chip is unreadable. -/
def Readable (n : Nand) : Prop := ∀ p, n.chip.page p ≠ none

/-- A block recovery is going on: `recover_from` (dhara/journal.c:713-754) has noted which pages to rescue and
`finish_recovery` (dhara/journal.c:756-773) has not yet been reached. -/
def Recovering (s : S) : Prop := s.j.recovery = true ∨ s.j.recoverNext ≠ NONE

/-- User pages of the chip, less one block. -/
def Cfg.ucap (c : Cfg) : Nat := (c.numBlocks - 1) * (c.ppb - c.ppb / c.ppc)

/-- The chip is large enough for a map (the reserve of dhara/map.c:100-111 leaves something over) and the collection
ratio is not extreme (it is less than eight blocks' worth of pages). -/
structure Fits (c : Cfg) : Prop where
  gc : c.gcr + 3 ≤ 8 * c.ppb
  cap : c.ucap / (c.gcr + 1) + 8 * c.ppb < c.ucap

end Dhara
