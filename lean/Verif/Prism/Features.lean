/-!
# Target features and the check of compatibility

Model of `src/libvfcinstrumentprism/TargetFeatures.hpp`.

Simplifications.
* A `std::set` of features is a list in order of insertion: the code only asks for membership and
  emptiness (`getAsString`, which depends on the order of the set, is only used in messages).
* The messages are left out.
-/

namespace Verif.Prism

/-- Texts. -/
abbrev Str := List Char

/-- The loop of `split` (`TargetFeatures.hpp:29-38`); `cur` is what has been extracted since the
last delimiter, reversed.  `std::getline` fails when nothing is left to extract. -/
def splitFrom (delimiter : Char) (cur : Str) : Str → List Str
  | [] => if cur = [] then [] else [cur.reverse]
  | c :: t =>
    if c = delimiter then cur.reverse :: splitFrom delimiter [] t
    else splitFrom delimiter (c :: cur) t

/-- `split` (`TargetFeatures.hpp:29-38`). -/
def split (s : Str) (delimiter : Char) : List Str := splitFrom delimiter [] s

/-- `class TargetFeature` (`TargetFeatures.hpp:79-121`). -/
structure Feature where
  enabled : Bool
  name : Str
deriving DecidableEq, Repr

/-- `TargetFeature(const std::string &)` (`TargetFeatures.hpp:82-93`). -/
def Feature.ofText : Str → Feature
  | '-' :: name => ⟨false, name⟩
  | '+' :: name => ⟨true, name⟩
  | name => ⟨true, name⟩

/-- `TargetFeature::getAsString` (`TargetFeatures.hpp:95-100`). -/
def Feature.text (f : Feature) : Str := (if f.enabled then '+' else '-') :: f.name

/-- `class TargetFeatures` (`TargetFeatures.hpp:123-274`). -/
abbrev Features := List Feature

/-- `addAttribute(const TargetFeature &)` (`TargetFeatures.hpp:180-188`): insertion in a set. -/
def Features.add (fs : Features) (f : Feature) : Features := if f ∈ fs then fs else fs ++ [f]

/-- `TargetFeatures(const Attribute &)` (`TargetFeatures.hpp:145-165`); `none` is a function
without the attribute. -/
def Features.ofAttribute : Option Str → Features
  | none => []
  | some s => (split s ',').foldl (fun fs t => fs.add (Feature.ofText t)) []

/-- `hasAttribute(const std::string &)` (`TargetFeatures.hpp:190-196`). -/
def Features.has (fs : Features) (t : Str) : Bool := decide (Feature.ofText t ∈ fs)

/-- `isIncludeIn` (`TargetFeatures.hpp:214-219`). -/
def Features.isIncludeIn (fs rhs : Features) : Bool := fs.all fun f => decide (f ∈ rhs)

/-- `getHighestSupportedISA_X86_64` (`TargetFeatures.hpp:276-300`), with the numbers of the
enumeration (`TargetFeatures.hpp:45-54`). -/
def highestIsa (fs : Features) : Nat :=
  if fs.has "avx512f".toList then 7
  else if fs.has "avx2".toList then 6
  else if fs.has "avx".toList then 5
  else if fs.has "sse4.2".toList then 4
  else if fs.has "sse3".toList then 3
  else if fs.has "sse2".toList then 2
  else if fs.has "sse".toList then 1
  else 0

/-- `areABICompatible` (`TargetFeatures.hpp:317-365`); the arguments are the attributes
`target-features` of the caller and of the callee. -/
def areABICompatible (caller callee : Option Str) : Bool :=
  let calleeFs := Features.ofAttribute callee
  let callerFs := Features.ofAttribute caller
  if callerFs.isEmpty then true
  else if calleeFs.isIncludeIn callerFs then true
  else decide (highestIsa callerFs ≥ highestIsa calleeFs)

end Verif.Prism
