import Verif.Added.Lemmas
import Verif.Added.Model
import Verif.Added.Props
import Verif.Added.PropsEncode
import Verif.Added.Strip
import Verif.Bpe.Cache
import Verif.Bpe.Lemmas
import Verif.Bpe.Loop
import Verif.Bpe.Model
import Verif.Bpe.Priority
import Verif.Bpe.Props
import Verif.Bpe.PropsCache
import Verif.Bpe.PropsWordMerge
import Verif.Bpe.Spec
import Verif.Bpe.Step
import Verif.Bpe.WordMerge
import Verif.ByteLevel.Model
import Verif.ByteLevel.Props
import Verif.Concurrency.DecodeBatch
import Verif.Concurrency.EncodeBatch
import Verif.Concurrency.PropsChunk
import Verif.Concurrency.PropsDecodeBatch
import Verif.Concurrency.PropsEncodeBatch
import Verif.Concurrency.PropsTrain
import Verif.Concurrency.Star
import Verif.Concurrency.Train
import Verif.Config.Components
import Verif.Config.CreateModel
import Verif.Config.Model
import Verif.Config.Props
import Verif.Config.PropsComponents
import Verif.Config.PropsCreateModel
import Verif.Config.PropsTemplateBuilder
import Verif.Config.TemplateBuilder
import Verif.Decoder.Model
import Verif.Decoder.Props
import Verif.Decoder.PropsCleanup
import Verif.Encoding.Budget
import Verif.Encoding.Heap
import Verif.Encoding.Lookup
import Verif.Encoding.MergeLemmas
import Verif.Encoding.Model
import Verif.Encoding.PadLemmas
import Verif.Encoding.PropsBudget
import Verif.Encoding.PropsHeap
import Verif.Encoding.PropsLookup
import Verif.Encoding.PropsMerge
import Verif.Encoding.PropsPad
import Verif.Encoding.PropsTokens
import Verif.Encoding.PropsTruncate
import Verif.Encoding.Spec
import Verif.Encoding.TruncateLemmas
import Verif.Encoding.WindowLemmas
import Verif.Files.Cache
import Verif.Files.CacheDir
import Verif.Files.Lemmas
import Verif.Files.Model
import Verif.Files.PropsCache
import Verif.Files.PropsCacheDir
import Verif.Files.PropsFiles
import Verif.Files.PropsMerges
import Verif.Go
import Verif.GoMap
import Verif.Norm.Bert
import Verif.Norm.Class
import Verif.Norm.Cover
import Verif.Norm.Fresh
import Verif.Norm.Ident
import Verif.Norm.Items
import Verif.Norm.Lemmas
import Verif.Norm.Lemmas2
import Verif.Norm.Model
import Verif.Norm.Overrun
import Verif.Norm.Pattern
import Verif.Norm.PropsBert
import Verif.Norm.PropsBertChain
import Verif.Norm.PropsBounds
import Verif.Norm.PropsForms
import Verif.Norm.PropsNormalized
import Verif.Norm.PropsNormalizers
import Verif.Norm.PropsOverrun
import Verif.Norm.PropsPattern
import Verif.Norm.PropsReplace
import Verif.Norm.PropsReplaceDecoder
import Verif.Norm.PropsSplit
import Verif.Norm.RangeOf
import Verif.Norm.Replace
import Verif.Norm.ReplaceDecoder
import Verif.Norm.Runs
import Verif.Norm.Slice
import Verif.Params.Model
import Verif.Params.Props
import Verif.Params.PropsCopy
import Verif.PreTok.Blocks
import Verif.PreTok.ByteLevel
import Verif.PreTok.ByteLevelLemmas
import Verif.PreTok.ByteLevelPieces
import Verif.PreTok.ByteRows
import Verif.PreTok.Decompose
import Verif.PreTok.Fresh
import Verif.PreTok.Gpt2
import Verif.PreTok.Inside
import Verif.PreTok.MetaParts
import Verif.PreTok.Metaspace
import Verif.PreTok.Model
import Verif.PreTok.Offsets
import Verif.PreTok.Parts
import Verif.PreTok.Pipeline
import Verif.PreTok.Prefix
import Verif.PreTok.PrefixReplace
import Verif.PreTok.PropsBpe
import Verif.PreTok.PropsByteBpe
import Verif.PreTok.PropsByteLevel
import Verif.PreTok.PropsEdits
import Verif.PreTok.PropsFolded
import Verif.PreTok.PropsGetSplits
import Verif.PreTok.PropsInside
import Verif.PreTok.PropsInsideUnigram
import Verif.PreTok.PropsIntoEncoding
import Verif.PreTok.PropsMetaspace
import Verif.PreTok.PropsOffsets
import Verif.PreTok.PropsOrigin
import Verif.PreTok.PropsOriginAccents
import Verif.PreTok.PropsOriginBert
import Verif.PreTok.PropsOriginNorm
import Verif.PreTok.PropsOriginReplace
import Verif.PreTok.PropsPipeline
import Verif.PreTok.PropsSplitters
import Verif.PreTok.PropsTokenizers
import Verif.PreTok.PropsUnigramText
import Verif.PreTok.PropsWordPieceBytes
import Verif.PreTok.PropsWordPieceText
import Verif.PreTok.Scripts
import Verif.PreTok.Segment
import Verif.PreTok.Splitters
import Verif.Processor.Model
import Verif.Processor.PropsAligned
import Verif.Processor.PropsBert
import Verif.Processor.PropsByteLevel
import Verif.Processor.PropsMaxLength
import Verif.Processor.PropsMaxLengthPairs
import Verif.Processor.PropsSequence
import Verif.Processor.PropsTemplate
import Verif.Processor.TemplateLemmas
import Verif.Regex.Lemmas
import Verif.Regex.Model
import Verif.Regex.Props
import Verif.Regex.PropsCuts
import Verif.Regex.PropsScripts
import Verif.Regex.PropsSplitAny
import Verif.Regex.Runs
import Verif.Slice.Lemmas
import Verif.Slice.Loops
import Verif.Slice.Model
import Verif.Slice.Props
import Verif.Slice.PropsKeep
import Verif.Slice.PropsUtil
import Verif.Slice.Util
import Verif.Spm.Model
import Verif.Spm.Normalizer
import Verif.Spm.Props
import Verif.Spm.PropsNormalizer
import Verif.Train.Alphabet
import Verif.Train.Builders
import Verif.Train.Count
import Verif.Train.Exec
import Verif.Train.First
import Verif.Train.Inv
import Verif.Train.Merge
import Verif.Train.Model
import Verif.Train.Near
import Verif.Train.PropsBuilders
import Verif.Train.PropsCount
import Verif.Train.PropsPrefix
import Verif.Train.PropsRun
import Verif.Train.PropsVocab
import Verif.Train.Reach
import Verif.Train.Result
import Verif.Train.Spec
import Verif.Unigram.Build
import Verif.Unigram.Cache
import Verif.Unigram.Known
import Verif.Unigram.Lemmas
import Verif.Unigram.Model
import Verif.Unigram.Props
import Verif.Unigram.PropsBuilder
import Verif.Unigram.PropsCache
import Verif.Unigram.PropsText
import Verif.Unigram.PropsVocab
import Verif.Unigram.Spec
import Verif.Utf8
import Verif.Vocab.Lemmas
import Verif.Vocab.Load
import Verif.Vocab.Model
import Verif.Vocab.Options
import Verif.Vocab.Ordered
import Verif.Vocab.PropsAdded
import Verif.Vocab.PropsDeclared
import Verif.Vocab.PropsDecode
import Verif.Vocab.PropsFlags
import Verif.Vocab.PropsLoad
import Verif.Vocab.PropsOptions
import Verif.Vocab.PropsReplace
import Verif.Vocab.PropsSplit
import Verif.Vocab.Replace
import Verif.Vocab.Split
import Verif.Vocab.Unique
import Verif.Whole.FromReader
import Verif.Whole.FromReaderLemmas
import Verif.Whole.Lemmas
import Verif.Whole.LiteralCut
import Verif.Whole.Marked
import Verif.Whole.Model
import Verif.Whole.Presets
import Verif.Whole.ProcAdds
import Verif.Whole.ProcCut
import Verif.Whole.Props
import Verif.Whole.PropsBatch
import Verif.Whole.PropsChars
import Verif.Whole.PropsDecode
import Verif.Whole.PropsFileBert
import Verif.Whole.PropsFileBertPair
import Verif.Whole.PropsFileBertPlaces
import Verif.Whole.PropsFileBytePair
import Verif.Whole.PropsFileBytes
import Verif.Whole.PropsFileDecoder
import Verif.Whole.PropsFileLength
import Verif.Whole.PropsFileLimits
import Verif.Whole.PropsFileLlama
import Verif.Whole.PropsFileLongest
import Verif.Whole.PropsFileMarkPlaces
import Verif.Whole.PropsFilePairs
import Verif.Whole.PropsFilePlaces
import Verif.Whole.PropsFileQuestion
import Verif.Whole.PropsFileSeveral
import Verif.Whole.PropsFileSpecial
import Verif.Whole.PropsFileTrimmed
import Verif.Whole.PropsFileUnigram
import Verif.Whole.PropsFileWindows
import Verif.Whole.PropsFileWords
import Verif.Whole.PropsFirst
import Verif.Whole.PropsFromReader
import Verif.Whole.PropsMarked
import Verif.Whole.PropsPieces
import Verif.Whole.PropsPresets
import Verif.Whole.PropsPresetsBert
import Verif.Whole.PropsPresetsRoberta
import Verif.Whole.PropsProcessors
import Verif.Whole.PropsQuestionRoberta
import Verif.Whole.PropsSeveral
import Verif.Whole.PropsTaking
import Verif.Whole.PropsTrained
import Verif.Whole.PropsTrainedBytes
import Verif.Whole.Several
import Verif.Whole.Taking
import Verif.Whole.TrainLines
import Verif.Word.Builder
import Verif.Word.Builders
import Verif.Word.Model
import Verif.Word.Props
import Verif.Word.PropsBuilder
import Verif.Word.PropsBuilders
