import Verif.Common

/-!
# The machine
-/

namespace ZT

/-- The order of bytes on the machine: config.h.cmake 6 `HOST_BIGENDIAN`, as CMakeLists.txt 82 finds it out. -/
class Host where
  big : Bool

/-- x86 and most others. -/
def Host.little : Host := ⟨false⟩

/-- For example s390x. -/
def Host.bigEndian : Host := ⟨true⟩

end ZT
